import Verif.Proofs.PgInterleave2
import Verif.Proofs.PgErrors
import Verif.Props.Pgasus
/-!
# C111: the sample programs for NUMA machines, with worker threads that run at the same time

The model is in `Verif/Model/PgInterleave.lean`; `PgSetup`, `pgShare` and `pgPart` are in `Verif/Props/Pgasus.lean`, `PgContract f g` is
at the top of `Verif/Proofs/Pgasus.lean`.
-/

namespace Lib842.Props
open Lib842 Spec

/-- What a phase writes on a node: elements of the array of sizes, bytes of the output buffer -/
inductive PgLoc where
  | size (x : Nat)
  | byte (q : Nat)

/-- Thread `t` may access `l` with its next step: before the call it stores the size, and the call may access the size and its output. -/
inductive PgTouches (d : PgDir) (cpc : Nat) : PgTh → PgLoc → Prop
  | store {t i : Nat} : i ≤ pgEnd cpc t → PgTouches d cpc ⟨some t, i, .head⟩ (.size i)
  | callSize {t : Option Nat} {i : Nat} : PgTouches d cpc ⟨t, i, .call⟩ (.size i)
  | callByte {t : Option Nat} {i q : Nat} : i * d.width ≤ q → q < i * d.width + d.width → PgTouches d cpc ⟨t, i, .call⟩ (.byte q)
  | inSize {t : Option Nat} {i n : Nat} {rc : Option Errno} {buf : List Byte} : PgTouches d cpc ⟨t, i, .inside rc n buf⟩ (.size i)
  | inByte {t : Option Nat} {i n q : Nat} {rc : Option Errno} {buf : List Byte} : i * d.width ≤ q → q < i * d.width + d.width →
      PgTouches d cpc ⟨t, i, .inside rc n buf⟩ (.byte q)

/-- Two threads of a node may access the same element or byte. -/
def PgRace (d : PgDir) (cpc : Nat) (s : PgSys) : Prop :=
  ∃ k w w' l, w ≠ w' ∧ PgTouches d cpc (s.th k w) l ∧ PgTouches d cpc (s.th k w') l

/-- The steps of the threads that have some: each thread has a next step that is not a store in the middle of a call. -/
def PgLive (d : PgDir) (f g : ChunkFn) (a : PgAddrs) (stop : Bool) (cpc : Nat) (s : PgSys) : Prop :=
  ∀ k w, (s.th k w).pc ≠ .done → ∃ s', PgStep d f g a stop cpc s s' false ∧ s'.th k w ≠ s.th k w

theorem pg_touch {d : PgDir} {ts : List Nat} {N cpn cpc : Nat} {E : Nat → Nat → Prop} (hF : PgI.Fits ts N cpn cpc E) {s : PgSys}
    (hT : PgI.TInv ts cpc s) {k w : Nat} {l : PgLoc} (h : PgTouches d cpc (s.th k w) l) :
    ∃ t i, (s.th k w).tid = some t ∧ t * cpc ≤ i ∧ i < t * cpc + cpc ∧
      (l = .size i ∨ ∃ q, l = .byte q ∧ i = q / d.width) := by
  have key : ∀ i, (s.th k w).i = i → PgI.Busy (s.th k w).pc → ∃ t, (s.th k w).tid = some t ∧ t * cpc ≤ i ∧ i < t * cpc + cpc := by
    intro i hi hb
    have hw : w < PgI.T ts k := hT.active (.inr fun h => by rw [h] at hb; exact hb)
    have hst := hT.st k w hw
    rcases ht : (s.th k w).tid with _ | t
    · rw [hst.1 ht] at hb; exact hb.elim
    · exact ⟨t, rfl, hi ▸ (hT.rng k w t ht).1, hi ▸ hT.bsy k w t ht hb⟩
  have hdiv : ∀ i q, i * d.width ≤ q → q < i * d.width + d.width → i = q / d.width := by
    intro i q h1 h2
    have h2' : q < (i + 1) * d.width := by rw [Nat.add_mul, Nat.one_mul]; exact h2
    have h3 := (Nat.le_div_iff_mul_le (PgI.width_pos d)).2 h1
    have h4 := (Nat.div_lt_iff_lt_mul (PgI.width_pos d)).2 h2'
    omega
  rcases hth : s.th k w with ⟨tid, i, pc⟩
  rw [hth] at h
  have e1 : (s.th k w).i = i := by rw [hth]
  have e2 : (s.th k w).pc = pc := by rw [hth]
  have e3 : (s.th k w).tid = tid := by rw [hth]
  cases h with
  | @store t _ hle =>
    obtain ⟨-, -, -, p4⟩ := PgI.place hF hT e3
    have hr := hT.rng k w t e3
    rw [e1] at hr
    have := hF.pos
    exact ⟨t, i, rfl, hr.1, by omega, .inl rfl⟩
  | callSize =>
    obtain ⟨t, h1, h2, h3⟩ := key i e1 (by rw [e2]; trivial)
    rw [e3] at h1
    exact ⟨t, i, h1, h2, h3, .inl rfl⟩
  | @callByte _ _ q hq1 hq2 =>
    obtain ⟨t, h1, h2, h3⟩ := key i e1 (by rw [e2]; trivial)
    rw [e3] at h1
    exact ⟨t, i, h1, h2, h3, .inr ⟨q, rfl, hdiv i q hq1 hq2⟩⟩
  | inSize =>
    obtain ⟨t, h1, h2, h3⟩ := key i e1 (by rw [e2]; trivial)
    rw [e3] at h1
    exact ⟨t, i, h1, h2, h3, .inl rfl⟩
  | @inByte _ _ _ q _ _ hq1 hq2 =>
    obtain ⟨t, h1, h2, h3⟩ := key i e1 (by rw [e2]; trivial)
    rw [e3] at h1
    exact ⟨t, i, h1, h2, h3, .inr ⟨q, rfl, hdiv i q hq1 hq2⟩⟩

theorem pg_no_race {d : PgDir} {ts : List Nat} {N cpn cpc : Nat} {E : Nat → Nat → Prop} (hF : PgI.Fits ts N cpn cpc E) {s : PgSys}
    (hT : PgI.TInv ts cpc s) : ¬ PgRace d cpc s := by
  rintro ⟨k, w, w', l, hne, h1, h2⟩
  obtain ⟨t, i, a1, a2, a3, a4⟩ := pg_touch hF hT h1
  obtain ⟨t', i', b1, b2, b3, b4⟩ := pg_touch hF hT h2
  have hi : i = i' := by
    rcases a4 with rfl | ⟨q, rfl, a4⟩ <;> rcases b4 with b4 | ⟨q', b4, b5⟩ <;> cases b4
    · rfl
    · rw [a4, b5]
  subst hi
  exact hne (hT.own a1 b1 a2 a3 b2 b3)

theorem pg_no_msgs {d : PgDir} {f g : ChunkFn} {a : PgAddrs} {stop : Bool} {ts : List Nat} {N cpn cpc : Nat} {E : Nat → Nat → Prop}
    {Stat : Nat → NodeMem → Prop} {P Q : Nat → Nat → NodeMem → Prop} {Res : Nat → Nat → Nat → List Byte → Prop}
    (hF : PgI.Fits ts N cpn cpc E) (hph : PgI.Phase d f g a N cpn E Stat P Q Res) {s₀ s : PgSys} {n : Nat}
    (hT : PgI.TInv ts cpc s₀) (h : PgI.MInv d N cpc Stat P Q Res s₀) (h0 : s₀.msgs = 0) (hs : PgExec d f g a stop cpc s₀ n s) :
    s.msgs = 0 := by
  induction hs with
  | init => exact h0
  | @step n s s' b he hst ih =>
    have hT' := (PgI.inv_exec hF hph hT h he).1
    cases hst with
    | @report k w t i hth => exact absurd (by rw [hth]) (hT'.rep k w)
    | _ => exact ih

theorem pg_total (stop : Bool) (cpc : Nat) (ts : List Nat) (mem : Nat → NodeMem) :
    PgI.total cpc ts (pgStart stop cpc ts mem) ≤ ts.sum * (3 * cpc + 2) := by
  have hr : ∀ k w, PgI.rank cpc ((pgStart stop cpc ts mem).th k w) ≤ 3 * cpc + 2 := by
    intro k w
    simp only [pgStart]
    split
    · cases stop
      · simp only [Bool.false_eq_true, if_false, PgI.rank]; omega
      · exact Nat.le_refl _
    · simp [PgI.rank]
  have hs : ∀ (l : List Nat) (u : Nat → Nat) (c : Nat), (∀ x, u x ≤ c) → (l.map u).sum ≤ l.length * c := by
    intro l u c hu
    induction l with
    | nil => simp
    | cons y l ih =>
      rw [List.map_cons, List.sum_cons, List.length_cons, Nat.add_mul, Nat.one_mul]
      have := hu y
      omega
  have hk : ∀ k, ((List.range (PgI.T ts k)).map fun w => PgI.rank cpc ((pgStart stop cpc ts mem).th k w)).sum ≤
      ts.getD k 0 * (3 * cpc + 2) := by
    intro k
    have := hs (List.range (PgI.T ts k)) (fun w => PgI.rank cpc ((pgStart stop cpc ts mem).th k w)) _ (hr k)
    rw [List.length_range] at this
    exact this
  have hsum : ∀ (l : List Nat) (u : Nat → Nat) (c : Nat), (∀ k, u k ≤ l.getD k 0 * c) →
      ((List.range l.length).map u).sum ≤ l.sum * c := by
    intro l
    induction l with
    | nil => intro u c _; simp
    | cons y l ih =>
      intro u c hu
      rw [List.length_cons, List.range_succ_eq_map, List.map_cons, List.sum_cons, List.map_map, List.sum_cons, Nat.add_mul]
      have h0 := hu 0
      have h1 := ih (u ∘ Nat.succ) c fun k => hu (k + 1)
      have h0' : u 0 ≤ y * c := h0
      omega
  exact hsum ts _ _ hk

section
variable {f g : ChunkFn} (hc : PgContract f g) (stop : Bool) (a : PgAddrs) {j : PgJunk} {avail p : Nat} {ts : List Nat} {file : List Byte}

theorem pg_facts (h : PgSetup j avail p ts id id (file.length % 2 ^ 32)) (hx : 0 < file.length % 2 ^ 32)
    (hx2 : file.length % 2 ^ 32 < 2 ^ 31) (len cpc : Nat) (hlen : len = pgShare p ts.length (file.length % 2 ^ 32))
    (hcpc : cpc = len / 65536 / (p / ts.length)) :
    0 < cpc ∧ len / 65536 < 2 ^ 64 ∧ 0 < ts.length ∧ 0 < p / ts.length ∧ len = pgPadded p (pgFileLength file.length) / ts.length ∧
    len * 2 ≤ avail ∧ (∀ k, (j.csizes k).length = len / 65536) ∧ ∀ k, (j.dsizes k).length = len / 65536 := by
  have hN : 0 < ts.length := List.length_pos_iff.2 h.nodes
  obtain ⟨hp1, hp2⟩ := h.cpus
  have hd1 : 1 ≤ p / ts.length := (Nat.le_div_iff_mul_le hN).2 (by omega)
  obtain ⟨q, hq⟩ : ∃ q, q = (file.length % 2 ^ 32 + 65536 * p - 1) / (65536 * p) := ⟨_, rfl⟩
  have hq1 : 1 ≤ q := by rw [hq]; exact (Nat.le_div_iff_mul_le (by omega)).2 (by omega)
  have hqt : q * (65536 * p) ≤ file.length % 2 ^ 32 + 65536 * p - 1 := by rw [hq]; exact Nat.div_mul_le_self _ _
  have hle : len ≤ q * (65536 * p) := by rw [hlen]; unfold pgShare; rw [← hq]; exact Nat.div_le_self _ _
  have hcpn : len / 65536 = q * p / ts.length := by
    rw [hlen]
    unfold pgShare
    rw [← hq, Nat.div_div_eq_div_mul, Nat.mul_comm ts.length 65536, ← Nat.div_div_eq_div_mul,
      show q * (65536 * p) = q * p * 65536 by rw [Nat.mul_comm 65536 p, Nat.mul_assoc], Nat.mul_div_cancel _ (by decide)]
  refine ⟨?_, ?_, hN, hd1, ?_, by rw [hlen]; exact h.mem, by rw [hlen]; exact h.csizes, by rw [hlen]; exact h.dsizes⟩
  · rw [hcpc]
    refine Nat.div_pos ?_ (by omega)
    rw [hcpn]
    exact Nat.div_le_div_right (by calc p = 1 * p := (Nat.one_mul p).symm
                                        _ ≤ q * p := Nat.mul_le_mul_right _ hq1)
  · have := Nat.div_le_self len 65536
    omega
  · rw [Pg.pgFileLength_eq _ hx2, Pg.pgPadded_eq (by omega) hp2 hx2, hlen]
    rfl

include hc
variable (h : PgSetup j avail p ts id id (file.length % 2 ^ 32)) (hx : 0 < file.length % 2 ^ 32)
  (hx2 : file.length % 2 ^ 32 < 2 ^ 31) (len cpc : Nat) (hlen : len = pgShare p ts.length (file.length % 2 ^ 32))
  (hcpc : cpc = len / 65536 / (p / ts.length)) (hfit : ∀ t ∈ ts, t * cpc ≤ len / 65536)
include h hx hx2 hlen hcpc hfit

/-- C111: however the steps of the worker threads are interleaved, and whatever the calls store in their output meanwhile: no thread ever does anything undefined,
no two threads ever access the same element of the arrays of sizes or the same byte of the output buffers, and no error is reported – in the first phase, and in the second phase after any
execution of the first. -/
theorem C111_numa_safe :
    (∀ n s, PgExec .comp f g a stop cpc (pgStart stop cpc ts (pgNode file j len (len / 65536))) n s →
      ¬ PgFault .comp f g a cpc s ∧ ¬ PgRace .comp cpc s ∧ s.msgs = 0) ∧
    ∀ n1 s1, PgExec .comp f g a stop cpc (pgStart stop cpc ts (pgNode file j len (len / 65536))) n1 s1 → s1.Done →
      ∀ n s, PgExec .dec f g a stop cpc (pgStart stop cpc ts s1.mem) n s → ¬ PgFault .dec f g a cpc s ∧ ¬ PgRace .dec cpc s ∧ s.msgs = 0 := by
  obtain ⟨c1, c2, c3, c4, c5, c6, c7, c8⟩ := pg_facts h hx hx2 len cpc hlen hcpc
  constructor
  · intro n s he
    obtain ⟨r1, r2, r3, r4⟩ := PgI.run1 (a := a) (stop := stop) (file := file) (j := j) hc rfl c1 hfit c2 c7 c8
    obtain ⟨i1, i2⟩ := PgI.inv_exec r1 r2 r3 r4 he
    exact ⟨PgI.no_fault r1 r2 i1 i2, pg_no_race r1 i1, pg_no_msgs r1 r2 r3 r4 rfl he⟩
  · intro n1 s1 he1 hd1 n s he
    obtain ⟨r1, r2, r3, r4⟩ := PgI.run2 (a := a) hc rfl c1 hfit c2 c7 c8 he1 hd1
    obtain ⟨i1, i2⟩ := PgI.inv_exec r1 r2 r3 r4 he
    exact ⟨PgI.no_fault r1 r2 i1 i2, pg_no_race r1 i1, pg_no_msgs r1 r2 r3 r4 rfl he⟩

/-- C111: at every moment each thread that has not ended can go on, a phase takes at most `3 * cpc + 2` steps for each thread (not counting the stores in the middle
of calls), and every execution that has been started can be completed. -/
theorem C111_numa_progress :
    (∀ n s, PgExec .comp f g a stop cpc (pgStart stop cpc ts (pgNode file j len (len / 65536))) n s →
      PgLive .comp f g a stop cpc s ∧ n ≤ ts.sum * (3 * cpc + 2) ∧ ∃ n' s', PgExec .comp f g a stop cpc s n' s' ∧ s'.Done) ∧
    ∀ n1 s1, PgExec .comp f g a stop cpc (pgStart stop cpc ts (pgNode file j len (len / 65536))) n1 s1 → s1.Done →
      ∀ n s, PgExec .dec f g a stop cpc (pgStart stop cpc ts s1.mem) n s →
        PgLive .dec f g a stop cpc s ∧ n ≤ ts.sum * (3 * cpc + 2) ∧ ∃ n' s', PgExec .dec f g a stop cpc s n' s' ∧ s'.Done := by
  obtain ⟨c1, c2, c3, c4, c5, c6, c7, c8⟩ := pg_facts h hx hx2 len cpc hlen hcpc
  constructor
  · intro n s he
    obtain ⟨r1, r2, r3, r4⟩ := PgI.run1 (a := a) (stop := stop) (file := file) (j := j) hc rfl c1 hfit c2 c7 c8
    obtain ⟨i1, i2⟩ := PgI.inv_exec r1 r2 r3 r4 he
    have hb := PgI.exec_bound r1 r2 r3 r4 he
    have ht := pg_total stop cpc ts (pgNode file j len (len / 65536))
    exact ⟨fun k w hd => PgI.can_step r1 r2 i1 i2 hd, by omega, PgI.exec_finish r1 r2 _ i1 i2 (Nat.le_refl _)⟩
  · intro n1 s1 he1 hd1 n s he
    obtain ⟨r1, r2, r3, r4⟩ := PgI.run2 (a := a) hc rfl c1 hfit c2 c7 c8 he1 hd1
    obtain ⟨i1, i2⟩ := PgI.inv_exec r1 r2 r3 r4 he
    have hb := PgI.exec_bound r1 r2 r3 r4 he
    have ht := pg_total stop cpc ts s1.mem
    exact ⟨fun k w hd => PgI.can_step r1 r2 i1 i2 hd, by omega, PgI.exec_finish r1 r2 _ i1 i2 (Nat.le_refl _)⟩

/-- C111: the result does not depend on the interleaving.  Some execution comes to an end, and every execution that does ends with the outcome of the program
whose threads run one after the other. -/
theorem C111_numa_outcome :
    (∃ out, PgRun stop f g a j avail p ts file out) ∧
    ∀ out, PgRun stop f g a j avail p ts file out → pgMain stop f g a j avail p ts id id (some (some file)) = .ok out := by
  obtain ⟨c1, c2, c3, c4, c5, c6, c7, c8⟩ := pg_facts h hx hx2 len cpc hlen hcpc
  have hmem : ¬ (avail < len ∨ avail < len * 2 % 2 ^ 64 ∨ avail < len / 65536 * 8) := by
    have : len * 2 % 2 ^ 64 ≤ len * 2 := Nat.mod_le _ _
    omega
  constructor
  · obtain ⟨r1, r2, r3, r4⟩ := PgI.run1 (a := a) (stop := stop) (file := file) (j := j) hc rfl c1 hfit c2 c7 c8
    obtain ⟨n1, s1, e1, d1⟩ := PgI.exec_finish (stop := stop) r1 r2 _ r3 r4 (Nat.le_refl _)
    obtain ⟨q1, q2, q3, q4⟩ := PgI.run2 (a := a) hc rfl c1 hfit c2 c7 c8 e1 d1
    obtain ⟨n2, s2, e2, d2⟩ := PgI.exec_finish (stop := stop) q1 q2 _ q3 q4 (Nat.le_refl _)
    exact ⟨_, .both c3 c4 c5 rfl hcpc hmem e1 d1 e2 d2⟩
  · intro out hr
    obtain ⟨dec, d1, d2, d3⟩ := (C76_outcome hc stop a h hx hx2 len cpc hlen hcpc).2 hfit
    rw [d3]
    cases hr with
    | nomem _ _ k3 k4 k5 =>
      rw [← c5] at k3
      subst k3
      subst k4
      exact absurd k5 hmem
    | @both len' cpn' cpc' n1 n2 s1 s2 _ _ k3 k4 k5 _ e1 dn1 e2 dn2 =>
      rw [← c5] at k3
      subst k3
      subst k4
      have hcp : cpc' = cpc := by rw [k5, hcpc]; rfl
      subst hcp
      have hres := fun k hk => PgI.result hc rfl c1 hfit c2 c7 c8 e1 dn1 e2 dn2 (k := k) hk
      have hdec : dec = (List.range ts.length).map fun k => (s2.mem k).dec := by
        apply List.ext_getElem?
        intro k
        by_cases hk : k < ts.length
        · have hT : PgI.T ts k = ts[k] := by
            unfold PgI.T
            rw [List.getD_eq_getElem?_getD, List.getElem?_eq_getElem hk]
            rfl
          rw [d2 k _ (List.getElem?_eq_getElem hk), List.getElem?_map, List.getElem?_range hk, Option.map_some, (hres k hk).2, hT]
          rfl
        · rw [List.getElem?_eq_none (by omega), List.getElem?_eq_none (by simp; omega)]
      have hcode : (dec = (List.range ts.length).map (pgPart file len')) ↔
          ((List.range ts.length).all fun k => decide ((s2.mem k).inp = (s2.mem k).dec)) = true := by
        rw [hdec, List.map_inj_left, List.all_eq_true]
        constructor
        · intro hh k hk
          rw [decide_eq_true_iff, (hres k (List.mem_range.1 hk)).1, hh k hk]
          rfl
        · intro hh k hk
          have := hh k hk
          rw [decide_eq_true_iff, (hres k (List.mem_range.1 hk)).1] at this
          rw [← this]
          rfl
      simp only [hcode]
      rw [hdec]

end

/-- C111 for non-empty files of less than 2 GiB and nodes with the same number of threads, one for each CPU: every execution of the programs that comes to an end
ends with exit status 0 and the file, continued with zeros, in the buffers with the decompressed data; and there is such an execution. -/
theorem C111_numa_round_trip {f g : ChunkFn} (hc : PgContract f g) (stop : Bool) (a : PgAddrs) {j : PgJunk} {avail p : Nat} {ts : List Nat}
    {file : List Byte} (h : PgSetup j avail p ts id id file.length) (hx : 0 < file.length) (hx2 : file.length < 2 ^ 31) (T : Nat)
    (hT : ∀ t ∈ ts, t = T) (hp : p = ts.length * T) :
    (∃ out, PgRun stop f g a j avail p ts file out) ∧
    ∀ out, PgRun stop f g a j avail p ts file out →
      out.code = 0 ∧ ∃ n, out.dec.flatten = file ++ List.replicate n 0 ∧ n < 65536 * p := by
  have hm : file.length % 2 ^ 32 = file.length := Nat.mod_eq_of_lt (by omega)
  have hN : 0 < ts.length := List.length_pos_iff.2 h.nodes
  have hpN : p / ts.length = T := by rw [hp, Nat.mul_div_cancel_left _ hN]
  obtain ⟨o1, o2⟩ := C111_numa_outcome hc stop a (file := file) (by rw [hm]; exact h) (by omega) (by omega) _ _ rfl rfl (by
    intro t ht
    rw [hT t ht, hpN]
    exact Nat.mul_div_le _ _)
  refine ⟨o1, fun out hr => ?_⟩
  have h1 := o2 out hr
  obtain ⟨dec, n, h2, h3, h4⟩ := C76_round_trip_partial hc stop a h hx hx2 T hT hp
  rw [h1] at h2
  cases h2
  exact ⟨rfl, n, h3, h4⟩

theorem pg_inp {d : PgDir} {f g : ChunkFn} {a : PgAddrs} {stop : Bool} {cpc n : Nat} {s₀ s : PgSys} (h : PgExec d f g a stop cpc s₀ n s) :
    ∀ k, (s.mem k).inp = (s₀.mem k).inp := by
  have hput : ∀ (m : NodeMem) (b : List Byte) (z : List Nat), (d.put m b z).inp = m.inp := by intro m b z; cases d <;> rfl
  induction h with
  | init => intro k; rfl
  | @step n s s' b _ hst ih =>
    intro k
    rw [← ih k]
    cases hst with
    | claim => rfl
    | quit => rfl
    | enter => rfl
    | report => rfl
    | @store k' =>
      simp only [PgSys.setTh, PgSys.setMem]
      split
      · rename_i e; rw [hput, e]
      · rfl
    | @scratch k' =>
      simp only [PgSys.setMem]
      split
      · rename_i e; rw [hput, e]
      · rfl
    | @leave k' =>
      simp only [PgSys.setTh, PgSys.setMem]
      split
      · rename_i e; rw [hput, e]
      · rfl

/-- C111: exit status 0 means that the data is right, whatever compressor and decompressor do and however the threads run, for files of less than 2 GiB: the
buffers with the decompressed data have the parts of the file. -/
theorem C111_numa_success_sound (stop : Bool) (f g : ChunkFn) (a : PgAddrs) (j : PgJunk) (avail p : Nat) (ts : List Nat) (file : List Byte)
    (dec : List (List Byte)) (hp : 0 < p) (hp2 : p < 2 ^ 31) (hx2 : file.length < 2 ^ 31)
    (h : PgRun stop f g a j avail p ts file ⟨0, dec⟩) :
    dec = (List.range ts.length).map (pgPart file (pgShare p ts.length file.length)) := by
  generalize ho : (⟨0, dec⟩ : PgOut) = o at h
  cases h with
  | nomem => cases ho
  | @both len cpn cpc n1 n2 s1 s2 _ _ k3 k4 k5 _ e1 dn1 e2 dn2 =>
    have hlen : len = pgShare p ts.length file.length := by
      rw [k3, Pg.pgFileLength_eq _ (by omega), Nat.mod_eq_of_lt (show file.length < 2 ^ 32 by omega), Pg.pgPadded_eq hp hp2 hx2]
      rfl
    obtain ⟨h1, h2⟩ := PgOut.mk.inj ho
    split at h1
    · rename_i hall
      rw [h2, List.map_inj_left]
      intro k hk
      have := (List.all_eq_true.1 hall) k hk
      rw [decide_eq_true_iff] at this
      rw [← this, pg_inp e2 k, ← hlen]
      exact (pg_inp e1 k).trans (Pg.pgNode_inp ..)
    · cases h1

/-- C111: errors do not go unnoticed: if the compressor (in the first phase) or the decompressor (in the second) fails for every chunk, then at the end of the phase
there has been a message, however the threads run. -/
theorem C111_numa_error_reported (d : PgDir) (f g : ChunkFn) (a : PgAddrs) (stop : Bool) (cpc : Nat) (ts : List Nat) (mem : Nat → NodeMem) (n : Nat) (s : PgSys)
    (hpos : 0 < cpc) (hbig : ∀ t ∈ ts, t * cpc < 2 ^ 64) (hth : ∃ t ∈ ts, 0 < t)
    (hf : d = .comp → ∀ x o src dst rc n b, f x o src dst = .ret rc n b → rc ≠ none)
    (hg : d = .dec → ∀ x o src dst rc n b, g x o src dst = .ret rc n b → rc ≠ none)
    (h : PgExec d f g a stop cpc (pgStart stop cpc ts mem) n s) (hd : s.Done) : 0 < s.msgs := by
  have hE := (PgI.EInv.start stop mem).exec hpos (ts := ts) (by
    intro k
    unfold PgI.T
    rw [List.getD_eq_getElem?_getD]
    by_cases hk : k < ts.length
    · rw [List.getElem?_eq_getElem hk]; exact hbig _ (List.getElem_mem hk)
    · rw [List.getElem?_eq_none (by omega)]; simp) (PgI.pgCall_fails hf hg) h
  rcases Nat.eq_zero_or_pos s.msgs with h0 | h0
  · exfalso
    obtain ⟨t, ht, hpt⟩ := hth
    obtain ⟨k, hk⟩ := List.mem_iff_getElem?.1 ht
    have hT : PgI.T ts k = t := by
      unfold PgI.T
      rw [List.getD_eq_getElem?_getD, hk]
      rfl
    exact (hE.act h0 k 0 (by omega)).1 (hd k 0)
  · exact h0

/-! ## Instances -/

/-- A compressor that always fails, two nodes with two threads -/
example (mem : Nat → NodeMem) (n : Nat) (s : PgSys)
    (h : PgExec .comp (fun _ _ _ dst => .ret (some .ENOSPC) 0 dst) (optD .little) pgAddrs0 true 2 (pgStart true 2 [2, 2] mem) n s) (hd : s.Done) :
    0 < s.msgs :=
  C111_numa_error_reported .comp _ _ _ _ _ _ _ _ _ (by decide) (by decide) ⟨2, by decide, by decide⟩
    (by intro _ x o src dst rc n b e; cases e; simp) (by simp) h hd

/-- There are such executions: one node with one thread, which has one chunk. -/
example : ∃ n s, PgExec .comp (fun _ _ _ dst => .ret (some .ENOSPC) 0 dst) (optD .little) pgAddrs0 true 1
    (pgStart true 1 [1] (pgNode [1] (pgJunk0 1) 65536 1)) n s ∧ s.Done ∧ s.msgs = 1 := by
  have hcall : ∀ m : NodeMem, 65536 ≤ m.inp.length → m.csizes[0]? = some (sampleChunk * 2) → m.comp.length = sampleChunk * 2 →
      pgCall (fun _ _ _ dst => .ret (some .ENOSPC) 0 dst) (optD .little) pgAddrs0 0 0 m .comp = some (some .ENOSPC, 0, m.comp) := by
    intro m h1 h2 h3
    unfold pgCall
    simp only [Nat.zero_mul]
    rw [readBytes_ok (by rw [Nat.zero_add]; exact h1), h2]
    simp only [bind, Option.bind]
    rw [readBytes_ok (by rw [h3, Nat.zero_add])]
    simp only [List.drop_zero]
    rw [List.take_of_length_le (Nat.le_of_eq h3), pgResult, if_pos h3]
  have hs0 := PgExec.init (d := .comp) (f := fun _ _ _ dst => .ret (some .ENOSPC) 0 dst) (g := optD .little) (a := pgAddrs0) (stop := true) (cpc := 1)
    (s₀ := pgStart true 1 [1] (pgNode [1] (pgJunk0 1) 65536 1))
  have hs1 := PgExec.step hs0 (.claim (k := 0) (w := 0) (i := 0) rfl)
  have hs2 := PgExec.step hs1 (.store (k := 0) (w := 0) (t := 0) (i := 0) rfl (by decide) (by decide))
  have hs3 := PgExec.step hs2 (.enter (k := 0) (w := 0) (t := 0) (i := 0) (rc := some .ENOSPC) (n := 0) (buf := _) rfl (hcall _ (by
    show 65536 ≤ (pgNode [1] (pgJunk0 1) 65536 1 0).inp.length
    rw [Pg.pgNode_inp, Pg.length_padTo]) rfl List.length_replicate))
  have hs4 := PgExec.step hs3 (.leave (k := 0) (w := 0) (t := 0) (i := 0) (rc := some .ENOSPC) (n := 0) rfl)
  have hs5 := PgExec.step hs4 (.report (k := 0) (w := 0) (t := 0) (i := 0) rfl)
  refine ⟨_, _, hs5, ?_, rfl⟩
  intro k w
  by_cases h : k = 0 ∧ w = 0
  · rw [h.1, h.2]; rfl
  · simp only [PgSys.setTh, PgSys.setMem, pgStart, if_neg h]
    rw [if_neg (by
      rcases k with _ | k
      · simp at h ⊢; omega
      · simp)]

/-- The hypotheses are met: two nodes with two threads each, a file of 5 bytes. -/
theorem exPgI : PgSetup (pgJunk0 2) (2 ^ 40) 4 [2, 2] id id ([1, 2, 3, 4, 5] : List Byte).length :=
  ⟨by decide, by decide, by decide, by decide, fun _ => List.length_replicate, fun _ => List.length_replicate,
    fun l => .refl l, fun l => .refl l⟩

example (stop : Bool) :
    (∃ out, PgRun stop (optC .little (fun _ => ojunk0) fun _ => junk0) (optD .little) pgAddrs0 (pgJunk0 2) (2 ^ 40) 4 [2, 2] [1, 2, 3, 4, 5] out) ∧
    ∀ out, PgRun stop (optC .little (fun _ => ojunk0) fun _ => junk0) (optD .little) pgAddrs0 (pgJunk0 2) (2 ^ 40) 4 [2, 2] [1, 2, 3, 4, 5] out →
      out.code = 0 ∧ ∃ n, out.dec.flatten = [1, 2, 3, 4, 5] ++ List.replicate n 0 ∧ n < 65536 * 4 :=
  C111_numa_round_trip (C76_contract .little .little (fun _ => ojunk0) fun _ => junk0) stop pgAddrs0 exPgI (by decide) (by decide) 2
    (by decide) (by decide)

/-- A file of 300000 bytes for the same machine: each thread has two chunks, and a phase takes at most 32 steps. -/
example (file : List Byte) (hl : file.length = 300000) (n : Nat) (s : PgSys)
    (h : PgExec .comp (optC .little (fun _ => ojunk0) fun _ => junk0) (optD .little) pgAddrs0 true 2
      (pgStart true 2 [2, 2] (pgNode file (pgJunk0 4) 262144 4)) n s) :
    ¬ PgFault .comp (optC .little (fun _ => ojunk0) fun _ => junk0) (optD .little) pgAddrs0 2 s ∧ ¬ PgRace .comp 2 s ∧ n ≤ 32 := by
  have hm : file.length % 2 ^ 32 = 300000 := by omega
  have hset : PgSetup (pgJunk0 4) (2 ^ 40) 4 [2, 2] id id (file.length % 2 ^ 32) := by
    rw [hm]
    exact ⟨by decide, by decide, by decide, by decide, fun _ => List.length_replicate, fun _ => List.length_replicate,
      fun l => .refl l, fun l => .refl l⟩
  have c := C76_contract .little .little (fun _ => ojunk0) fun _ => junk0
  have h1 := (C111_numa_safe c true pgAddrs0 hset (by omega) (by omega) 262144 2 (by rw [hm]; decide) (by decide) (by decide)).1 n s h
  have h2 := (C111_numa_progress c true pgAddrs0 hset (by omega) (by omega) 262144 2 (by rw [hm]; decide) (by decide) (by decide)).1 n s h
  exact ⟨h1.1, h1.2.1, h2.2.1⟩

/-- `PgRace` and `PgFault` can occur: with chunks of different threads that overlap, and with chunks outside of the arrays. -/
example : PgRace .comp 1 ⟨pgNode [] (pgJunk0 2) 131072 2, fun _ => 2, fun _ w => ⟨some w, 0, .call⟩, 0⟩ ∧
    PgFault .comp (optC .little (fun _ => ojunk0) fun _ => junk0) (optD .little) pgAddrs0 1
      ⟨pgNode [] (pgJunk0 2) 131072 2, fun _ => 3, fun _ w => ⟨some w, w, .head⟩, 0⟩ :=
  ⟨⟨0, 0, 1, .size 0, by decide, .callSize, .callSize⟩, ⟨0, 2, 2, 2, .inl ⟨rfl, by decide, by decide⟩⟩⟩

end Lib842.Props
