import Verif.Proofs.PgasusMain
import Verif.Props.StreamBlock
/-!
# C76: the sample programs for machines with several NUMA nodes

`PgContract f g` is at the top of `Verif/Proofs/Pgasus.lean`: `f` compresses every chunk of 64 KiB into
128 KiB of space, and `g` restores the chunk from the bytes announced.
-/

namespace Lib842.Props
open Lib842 Spec

/-- The share of a node: the length of the file, rounded up to a multiple of 64 KiB for each of `p` CPUs, divided
by the number of nodes. -/
def pgShare (p n x : Nat) : Nat := (x + 65536 * p - 1) / (65536 * p) * (65536 * p) / n

/-- What node `k` gets: its part of the file, continued with zeros. -/
def pgPart (file : List Byte) (len k : Nat) : List Byte :=
  (file.drop (k * len)).take len ++ List.replicate (len - (file.drop (k * len)).length) 0

/-- C76: the implementation the programs use (`lib842impl`) meets the contract. -/
theorem C76_contract (e e' : Endian) (j : Nat → OptJunk) (jsw : Nat → CompJunk) :
    PgContract (optC e j jsw) (optD e') := by
  constructor
  intro a o src dst hs hd
  have hne : src ≠ [] := by intro hx; rw [hx] at hs; simp at hs
  obtain ⟨n, buf, h⟩ : ∃ n buf, optsw842Compress e a o (j a) (jsw a) src dst = .ret none n buf := by
    obtain ⟨n, b, h, -⟩ := C12_opt_worst_case e a o (j a) (jsw a) src dst (by omega) hne (by rw [hs, hd]; decide)
      (.inr (by rw [hs]; decide))
    exact ⟨n, b, h⟩
  have hl := C07_opt_length_contract e e a o a o (j a) (j a) (jsw a) (jsw a) src dst dst n n buf buf Iff.rfl h h
  refine ⟨n, buf, h, (keeps_optC e j jsw a o src dst none n buf h).trans hd, by have := hl.2.2.1; omega,
    fun a' o' dst' hd' => ?_⟩
  obtain ⟨b', h1, h2, h3⟩ := C02_opt_round_trip_partial e e' a o a' o' (j a) (jsw a) src dst dst' n buf h
    (by omega) (.inr (by omega))
  rw [exact_of_take hs hd' h2 h3, hs] at h1
  exact h1

/-- The surroundings of a run on a file of `x` bytes (modulo 2^32): at least one node, not more nodes than CPUs, enough memory,
threads in any order. -/
structure PgSetup (j : PgJunk) (avail p : Nat) (ts : List Nat) (sched1 sched2 : List (Nat × Nat) → List (Nat × Nat)) (x : Nat) :
    Prop where
  nodes : ts ≠ []
  cpus : ts.length ≤ p ∧ p < 2 ^ 31
  threads : ∀ t ∈ ts, t < 2 ^ 31
  mem : pgShare p ts.length x * 2 ≤ avail
  csizes : ∀ k, (j.csizes k).length = pgShare p ts.length x / 65536
  dsizes : ∀ k, (j.dsizes k).length = pgShare p ts.length x / 65536
  perm1 : ∀ l, (sched1 l).Perm l
  perm2 : ∀ l, (sched2 l).Perm l

theorem sum_extreme : ∀ (ts : List Nat) (d : Nat), (∀ t ∈ ts, t ≤ d) → d * ts.length ≤ ts.sum → ∀ t ∈ ts, t = d := by
  intro ts d
  induction ts with
  | nil => intro _ _ t ht; cases ht
  | cons x ts ih =>
    intro h1 h2 t ht
    have hs : ∀ l : List Nat, (∀ t ∈ l, t ≤ d) → l.sum ≤ d * l.length := by
      intro l
      induction l with
      | nil => intro _; simp
      | cons y l ih =>
        intro h
        have := ih fun t ht => h t (List.mem_cons_of_mem _ ht)
        have := h y (List.mem_cons_self ..)
        rw [List.sum_cons, List.length_cons, Nat.mul_succ]
        omega
    have h3 := h1 x (List.mem_cons_self ..)
    have h4 := hs ts fun t ht => h1 t (List.mem_cons_of_mem _ ht)
    rw [List.sum_cons, List.length_cons, Nat.mul_succ] at h2
    rcases List.mem_cons.1 ht with rfl | ht
    · omega
    · exact ih (fun t ht => h1 t (List.mem_cons_of_mem _ ht)) (by omega) t ht

section
variable {f g : ChunkFn} (hc : PgContract f g) (stop : Bool) (a : PgAddrs) {j : PgJunk} {avail p : Nat} {ts : List Nat}
  {sched1 sched2 : List (Nat × Nat) → List (Nat × Nat)} {file : List Byte}
include hc

/-- C76: what the programs do on a file whose length, as an `int`, is positive.  Every thread takes
`cpc` chunks.  If the threads of some node together take more chunks than the node has, the behaviour
is undefined.  Otherwise every node restores the chunks its threads take; the rest of its buffer stays
zero; and the exit status is 0 if all parts of the file are restored, -47 otherwise. -/
theorem C76_outcome (h : PgSetup j avail p ts sched1 sched2 (file.length % 2 ^ 32)) (hx : 0 < file.length % 2 ^ 32)
    (hx2 : file.length % 2 ^ 32 < 2 ^ 31) (len cpc : Nat) (hlen : len = pgShare p ts.length (file.length % 2 ^ 32))
    (hcpc : cpc = len / 65536 / (p / ts.length)) :
    ((∃ t ∈ ts, len / 65536 < t * cpc) → pgMain stop f g a j avail p ts sched1 sched2 (some (some file)) = .ub) ∧
    ((∀ t ∈ ts, t * cpc ≤ len / 65536) → ∃ dec : List (List Byte), dec.length = ts.length ∧
      (∀ k t, ts[k]? = some t →
        dec[k]? = some ((pgPart file len k).take (t * cpc * 65536) ++ List.replicate (len - t * cpc * 65536) 0)) ∧
      pgMain stop f g a j avail p ts sched1 sched2 (some (some file)) =
        .ok ⟨if dec = (List.range ts.length).map (pgPart file len) then 0 else -47, dec⟩) := by
  obtain ⟨h1, h2, h3, h4, h5, h6, h7, h8⟩ := h
  rw [← hlen] at h4 h5 h6
  exact (Pg.outcome hc stop a j avail p ts sched1 sched2 file len (len / 65536) cpc h1 h2.1 h2.2 h3 hx hx2 h7 h8 hlen rfl hcpc h4
    h5 h6).2

theorem pg_equal (h : PgSetup j avail p ts sched1 sched2 (file.length % 2 ^ 32)) (hx : 0 < file.length % 2 ^ 32)
    (hx2 : file.length % 2 ^ 32 < 2 ^ 31) (T : Nat) (hT : ∀ t ∈ ts, t = T) (hp : p = ts.length * T) :
    ∃ dec, pgMain stop f g a j avail p ts sched1 sched2 (some (some file)) = .ok ⟨0, dec⟩ ∧
      dec.flatten = Pg.padTo (ts.length * pgShare p ts.length (file.length % 2 ^ 32)) file ∧
      file.length % 2 ^ 32 ≤ ts.length * pgShare p ts.length (file.length % 2 ^ 32) ∧
      ts.length * pgShare p ts.length (file.length % 2 ^ 32) < file.length % 2 ^ 32 + 65536 * p := by
  have hN : 0 < ts.length := List.length_pos_iff.2 h.nodes
  have hp1 := h.cpus.1
  have hT0 : 0 < T := by
    rcases Nat.eq_zero_or_pos T with h0 | h0
    · rw [h0, Nat.mul_zero] at hp; omega
    · exact h0
  obtain ⟨q, hq⟩ : ∃ q, q = (file.length % 2 ^ 32 + 65536 * p - 1) / (65536 * p) := ⟨_, rfl⟩
  have hlen : pgShare p ts.length (file.length % 2 ^ 32) = q * T * 65536 := by
    unfold pgShare
    rw [← hq, hp, show q * (65536 * (ts.length * T)) = (q * T * 65536) * ts.length by
      simp only [Nat.mul_assoc, Nat.mul_left_comm, Nat.mul_comm]]
    exact Nat.mul_div_cancel _ hN
  have hpN : p / ts.length = T := by rw [hp, Nat.mul_div_cancel_left _ hN]
  have htot : ts.length * (q * T * 65536) = q * (65536 * p) := by
    rw [hp]; simp only [Nat.mul_assoc, Nat.mul_left_comm, Nat.mul_comm]
  have hcpc : q = q * T * 65536 / 65536 / (p / ts.length) := by
    rw [Nat.mul_div_cancel _ (by decide), hpN, Nat.mul_div_cancel _ hT0]
  have hlow : file.length % 2 ^ 32 ≤ q * (65536 * p) ∧ q * (65536 * p) < file.length % 2 ^ 32 + 65536 * p := by
    have h1 := Nat.div_mul_le_self (file.length % 2 ^ 32 + 65536 * p - 1) (65536 * p)
    have h2 := Nat.lt_div_mul_add (a := file.length % 2 ^ 32 + 65536 * p - 1) (b := 65536 * p) (by omega)
    rw [← hq] at h1 h2
    omega
  obtain ⟨dec, d1, d2, d3⟩ := (C76_outcome hc stop a h hx hx2 (q * T * 65536) q hlen.symm hcpc).2 (by
    intro t ht
    rw [hT t ht, Nat.mul_div_cancel _ (by decide), Nat.mul_comm])
  have hdec : dec = (List.range ts.length).map (pgPart file (q * T * 65536)) := by
    apply List.ext_getElem?
    intro k
    by_cases hk : k < ts.length
    · rw [d2 k _ (List.getElem?_eq_getElem hk), List.getElem?_map, List.getElem?_range hk, hT _ (List.getElem_mem hk), Nat.mul_comm T q,
        Nat.sub_self]
      have : (pgPart file (q * T * 65536) k).length = q * T * 65536 := Pg.length_padTo _ _
      rw [List.take_of_length_le (by omega)]
      simp
    · rw [List.getElem?_eq_none (by omega), List.getElem?_eq_none (by simp; omega)]
  rw [if_pos hdec] at d3
  refine ⟨dec, d3, ?_, ?_, ?_⟩
  · rw [hlen, hdec]
    exact Pg.flatten_parts _ _ _
  · rw [hlen, htot]; exact hlow.1
  · rw [hlen, htot]; exact hlow.2

/-- C76 for non-empty files of less than 2 GiB and nodes with the same number of threads, one for each
CPU: both programs end with exit status 0, and the buffers with the decompressed data have the file, continued
with zeros, whatever the order of the threads and whatever the arrays of sizes contain at first. -/
theorem C76_round_trip_partial (h : PgSetup j avail p ts sched1 sched2 file.length) (hx : 0 < file.length)
    (hx2 : file.length < 2 ^ 31) (T : Nat) (hT : ∀ t ∈ ts, t = T) (hp : p = ts.length * T) :
    ∃ dec n, pgMain stop f g a j avail p ts sched1 sched2 (some (some file)) = .ok ⟨0, dec⟩ ∧
      dec.flatten = file ++ List.replicate n 0 ∧ n < 65536 * p := by
  have hm : file.length % 2 ^ 32 = file.length := Nat.mod_eq_of_lt (by omega)
  obtain ⟨dec, d1, d2, d3, d4⟩ := pg_equal hc stop a (file := file) (by rw [hm]; exact h) (by omega) (by omega) T hT hp
  rw [hm] at d2 d3 d4
  refine ⟨dec, ts.length * pgShare p ts.length file.length - file.length, d1, ?_, ?_⟩
  · rw [d2]
    unfold Pg.padTo
    rw [List.take_of_length_le d3]
  · omega

/-- C76 is false for files of 4 GiB and more: `int file_length` keeps the length modulo 2^32, the programs process only that
much (rounded up), and report success all the same. -/
theorem C76_large_file_false (h : PgSetup j avail p ts sched1 sched2 (file.length % 2 ^ 32)) (hx : 0 < file.length % 2 ^ 32)
    (hx2 : file.length % 2 ^ 32 < 2 ^ 31) (hbig : 2 ^ 32 ≤ file.length) (T : Nat) (hT : ∀ t ∈ ts, t = T)
    (hp : p = ts.length * T) (hp' : p ≤ 2 ^ 16) :
    ∃ dec n, pgMain stop f g a j avail p ts sched1 sched2 (some (some file)) = .ok ⟨0, dec⟩ ∧
      dec.flatten = file.take n ∧ n < file.length % 2 ^ 32 + 65536 * p ∧ n < file.length := by
  obtain ⟨dec, d1, d2, d3, d4⟩ := pg_equal hc stop a h hx hx2 T hT hp
  have hmod : 2 ^ 32 ≤ file.length - file.length % 2 ^ 32 := by omega
  refine ⟨dec, ts.length * pgShare p ts.length (file.length % 2 ^ 32), d1, ?_, d4, by omega⟩
  rw [d2]
  unfold Pg.padTo
  rw [Nat.sub_eq_zero_of_le (by omega)]
  simp

/-- C76 is false if the nodes do not have the same number of threads ("assumption: all numa nodes with CPUs have the same amount
of cores/threads", compdecomp_pgasus.cpp 38): with one thread per CPU, the behaviour is undefined for every file (whose length
as an `int` is positive). -/
theorem C76_unequal_nodes_false (h : PgSetup j avail p ts sched1 sched2 (file.length % 2 ^ 32)) (hx : 0 < file.length % 2 ^ 32)
    (hx2 : file.length % 2 ^ 32 < 2 ^ 31) (hp : p = ts.sum) (hne : ¬ ∃ T, ∀ t ∈ ts, t = T) :
    pgMain stop f g a j avail p ts sched1 sched2 (some (some file)) = .ub := by
  have hN : 0 < ts.length := List.length_pos_iff.2 h.nodes
  refine (C76_outcome hc stop a h hx hx2 _ _ rfl rfl).1 ?_
  obtain ⟨q, hq⟩ : ∃ q, q = (file.length % 2 ^ 32 + 65536 * p - 1) / (65536 * p) := ⟨_, rfl⟩
  have hp1 := h.cpus.1
  have hq1 : 1 ≤ q := by rw [hq]; exact (Nat.le_div_iff_mul_le (by omega)).2 (by omega)
  have hcpn : pgShare p ts.length (file.length % 2 ^ 32) / 65536 = q * p / ts.length := by
    unfold pgShare
    rw [← hq, Nat.div_div_eq_div_mul, Nat.mul_comm ts.length 65536, ← Nat.div_div_eq_div_mul,
      show q * (65536 * p) = q * p * 65536 by rw [Nat.mul_comm 65536 p, Nat.mul_assoc], Nat.mul_div_cancel _ (by decide)]
  rw [hcpn]
  obtain ⟨d, hd⟩ : ∃ d, d = p / ts.length := ⟨_, rfl⟩
  rw [← hd]
  have hd0 : 0 < d := by rw [hd]; exact Nat.div_pos hp1 hN
  -- some node has more threads than the average
  obtain ⟨t, ht, htd⟩ : ∃ t ∈ ts, d + 1 ≤ t := by
    by_contra hcon
    have hall : ∀ t ∈ ts, t ≤ d := fun t ht => by
      by_contra h'
      exact hcon ⟨t, ht, by omega⟩
    refine hne ⟨d, fun t ht => ?_⟩
    have hle : d * ts.length ≤ ts.sum := by rw [← hp, hd]; exact Nat.div_mul_le_self _ _
    exact sum_extreme ts d hall hle t ht
  refine ⟨t, ht, ?_⟩
  have h1 : q * p / ts.length < q * (d + 1) := by
    rw [Nat.div_lt_iff_lt_mul hN, Nat.mul_assoc]
    refine (Nat.mul_lt_mul_left (by omega)).2 ?_
    have := Nat.lt_div_mul_add hN (a := p)
    rw [← hd] at this
    rw [Nat.add_mul, Nat.one_mul]
    exact this
  have h2 : q ≤ q * p / ts.length / d := by
    rw [Nat.le_div_iff_mul_le hd0, Nat.le_div_iff_mul_le hN, Nat.mul_assoc]
    refine Nat.mul_le_mul_left _ ?_
    rw [hd]
    exact Nat.div_mul_le_self _ _
  calc q * p / ts.length < q * (d + 1) := h1
    _ = (d + 1) * q := Nat.mul_comm _ _
    _ ≤ t * (q * p / ts.length / d) := Nat.mul_le_mul htd h2
end

/-- C76 is false for an empty file, and for files of a multiple of 4 GiB: `chunks_per_cpu` is 0 and `chunkEndLocal`
2^64 - 1, so that every thread leaves its buffers at once. -/
theorem C76_empty_file_false (stop : Bool) (f g : ChunkFn) (a : PgAddrs) (j : PgJunk) (avail p : Nat) (ts : List Nat)
    (sched1 sched2 : List (Nat × Nat) → List (Nat × Nat)) (file : List Byte) (hp : ts.length ≤ p) (hp2 : p < 2 ^ 31)
    (ht : ∃ t ∈ ts, 0 < t) (hx : file.length % 2 ^ 32 = 0) (hs1 : ∀ l, (sched1 l).Perm l) :
    pgMain stop f g a j avail p ts sched1 sched2 (some (some file)) = .ub :=
  Pg.nothing stop f g a j avail p ts sched1 sched2 file hp ht (by
    have hN : 0 < ts.length := by obtain ⟨t, ht, -⟩ := ht; exact List.length_pos_of_mem ht
    rw [Pg.pgFileLength_eq _ (by omega), hx, Pg.pgPadded_eq (by omega) hp2 (by decide), Nat.zero_add,
      Nat.div_eq_of_lt (by omega), Nat.zero_mul]) hs1

/-- C76 is false for files just below 4 GiB (or a multiple of it): the length is negative as an `int`, and rounding it up
gives 0; the same happens as for an empty file. -/
theorem C76_below_4GiB_false (stop : Bool) (f g : ChunkFn) (a : PgAddrs) (j : PgJunk) (avail p : Nat) (ts : List Nat)
    (sched1 sched2 : List (Nat × Nat) → List (Nat × Nat)) (file : List Byte) (hp : ts.length ≤ p) (hp2 : p < 2 ^ 31)
    (ht : ∃ t ∈ ts, 0 < t) (hx : 2 ^ 31 ≤ file.length % 2 ^ 32) (hx2 : 2 ^ 32 < file.length % 2 ^ 32 + 65536 * p)
    (hs1 : ∀ l, (sched1 l).Perm l) :
    pgMain stop f g a j avail p ts sched1 sched2 (some (some file)) = .ub :=
  Pg.nothing stop f g a j avail p ts sched1 sched2 file hp ht (by
    rw [Pg.pgFileLength_neg _ hx]
    unfold pgPadded sampleChunk
    rw [Nat.div_eq_of_lt (by omega), Nat.zero_mul]) hs1

/-- C76 is false for other files of 2 GiB to 4 GiB: the length is negative as an `int`, a huge number as a `size_t`, and the
programs end with exit status 1 for want of memory, however much of it the file would need. -/
theorem C76_2GiB_false (stop : Bool) (f g : ChunkFn) (a : PgAddrs) (j : PgJunk) (avail p : Nat) (ts : List Nat)
    (sched1 sched2 : List (Nat × Nat) → List (Nat × Nat)) (file : List Byte) (hts : ts ≠ []) (hp : ts.length ≤ p) (hp2 : p < 2 ^ 31)
    (hx : 2 ^ 31 ≤ file.length % 2 ^ 32) (hx2 : file.length % 2 ^ 32 + 65536 * p ≤ 2 ^ 32) (hav : (avail + 1) * ts.length ≤ 2 ^ 63) :
    pgMain stop f g a j avail p ts sched1 sched2 (some (some file)) = .ok ⟨1, []⟩ := by
  have hN : 0 < ts.length := List.length_pos_iff.2 hts
  have hd1 : 1 ≤ p / ts.length := (Nat.le_div_iff_mul_le hN).2 (by omega)
  have hpad : 2 ^ 63 ≤ pgPadded p (pgFileLength file.length) := by
    rw [Pg.pgFileLength_neg _ hx]
    unfold pgPadded sampleChunk
    rw [Nat.mod_eq_of_lt (by omega)]
    have := Nat.lt_div_mul_add (a := 2 ^ 64 - 2 ^ 32 + file.length % 2 ^ 32 + 65536 * p - 1) (b := 65536 * p) (by omega)
    omega
  have hlt : avail < pgPadded p (pgFileLength file.length) / ts.length :=
    (Nat.le_div_iff_mul_le hN).2 (Nat.le_trans hav hpad)
  unfold pgMain
  simp only
  rw [if_neg (by omega), if_pos (.inl hlt)]

/-- A file of 3 GiB on two nodes with two CPUs each, and one of 2^32 - 1 bytes -/
example : (∀ file : List Byte, file.length = 3 * 2 ^ 30 →
      pgMain true (optC .little (fun _ => ojunk0) fun _ => junk0) (optD .little) ⟨fun _ => 0, fun _ => 0, fun _ => 0⟩
        ⟨fun _ => [], fun _ => []⟩ (2 ^ 50) 4 [2, 2] id id (some (some file)) = .ok ⟨1, []⟩) ∧
    ∀ file : List Byte, file.length = 2 ^ 32 - 1 →
      pgMain true (optC .little (fun _ => ojunk0) fun _ => junk0) (optD .little) ⟨fun _ => 0, fun _ => 0, fun _ => 0⟩
        ⟨fun _ => [], fun _ => []⟩ (2 ^ 50) 4 [2, 2] id id (some (some file)) = .ub :=
  ⟨fun file h => C76_2GiB_false _ _ _ _ _ _ _ _ _ _ _ (by decide) (by decide) (by decide) (by omega) (by omega) (by decide),
   fun file h => C76_below_4GiB_false _ _ _ _ _ _ _ _ _ _ _ (by decide) (by decide) (by decide) (by omega) (by omega)
     fun l => List.Perm.refl l⟩

/-- C76: exit status 0 means that the data is right, whatever compressor and decompressor do, for files of less than 2 GiB: the
buffers with the decompressed data have the parts of the file. -/
theorem C76_success_sound (stop : Bool) (f g : ChunkFn) (a : PgAddrs) (j : PgJunk) (avail p : Nat) (ts : List Nat)
    (sched1 sched2 : List (Nat × Nat) → List (Nat × Nat)) (file : List Byte) (dec : List (List Byte)) (hp : 0 < p) (hp2 : p < 2 ^ 31)
    (hx2 : file.length < 2 ^ 31) (h : pgMain stop f g a j avail p ts sched1 sched2 (some (some file)) = .ok ⟨0, dec⟩) :
    dec = (List.range ts.length).map (pgPart file (pgShare p ts.length file.length)) := by
  have := Pg.sound h
  rw [Pg.pgFileLength_eq _ (by omega), Nat.mod_eq_of_lt (show file.length < 2 ^ 32 by omega), Pg.pgPadded_eq hp hp2 hx2] at this
  exact this

/-- C76: `next_pow2` is the least power of two that is not smaller, up to 2^63 (beyond, it is 0). -/
theorem C76_next_pow2 (x : BitVec 64) (h0 : 0 < x.toNat) (h1 : x.toNat ≤ 2 ^ 63) :
    ∃ k, (nextPow2 x).toNat = 2 ^ k ∧ x.toNat ≤ 2 ^ k ∧ 2 ^ k < 2 * x.toNat :=
  Pg.nextPow2_spec x h0 h1

example : nextPow2 0 = 0 ∧ nextPow2 0x30000 = 0x40000 ∧ nextPow2 0x40000 = 0x40000 ∧ nextPow2 0x8000000000000001 = 0 := by decide

/-! ## Instances -/

/-- Arrays of sizes with a given length -/
def pgJunk0 (n : Nat) : PgJunk := ⟨fun k => List.replicate n k, fun _ => List.replicate n 7⟩
def pgAddrs0 : PgAddrs := ⟨fun k => 4096 * k, fun k => 4096 * k + 1024, fun k => 4096 * k + 2048⟩

/-- The hypotheses of `C76_round_trip_partial` are met: two nodes with two threads each, a file of 5 bytes. -/
theorem exPg : PgSetup (pgJunk0 2) (2 ^ 40) 4 [2, 2] List.reverse id ([1, 2, 3, 4, 5] : List Byte).length :=
  ⟨by decide, by decide, by decide, by decide, fun _ => List.length_replicate, fun _ => List.length_replicate,
    fun l => l.reverse_perm, fun l => .refl l⟩

example : ∃ dec n, pgMain true (optC .little (fun _ => ojunk0) fun _ => junk0) (optD .little) pgAddrs0 (pgJunk0 2) (2 ^ 40) 4 [2, 2]
    List.reverse id (some (some [1, 2, 3, 4, 5])) = .ok ⟨0, dec⟩ ∧
    dec.flatten = [1, 2, 3, 4, 5] ++ List.replicate n 0 ∧ n < 65536 * 4 :=
  C76_round_trip_partial (C76_contract .little .little (fun _ => ojunk0) fun _ => junk0) true pgAddrs0 exPg (by decide) (by decide)
    2 (by decide) (by decide)

/-- Three CPUs on two nodes -/
example : pgMain true (optC .little (fun _ => ojunk0) fun _ => junk0) (optD .little) pgAddrs0 (pgJunk0 1) (2 ^ 40) 3 [2, 1]
    List.reverse id (some (some [1, 2, 3, 4, 5])) = .ub :=
  C76_unequal_nodes_false (C76_contract .little .little (fun _ => ojunk0) fun _ => junk0) true pgAddrs0
    ⟨by decide, by decide, by decide, by decide, fun _ => List.length_replicate, fun _ => List.length_replicate,
      fun l => l.reverse_perm, fun l => .refl l⟩ (by decide) (by decide) (by decide)
    (fun ⟨T, hT⟩ => by have h1 := hT 2 (by decide); have h2 := hT 1 (by decide); omega)

/-- C76 is false if there are fewer threads than CPUs, e.g. one thread for each of two nodes with two CPUs: half of the chunks are
not processed, and the program fails with -47 unless they are all zero. -/
theorem C76_idle_cpus_false (file : List Byte) (hlen : file.length = 4 * 65536) (hnz : file[65536]? ≠ some 0) :
    ∃ dec, pgMain true (optC .little (fun _ => ojunk0) fun _ => junk0) (optD .little) pgAddrs0 (pgJunk0 2) (2 ^ 40) 4 [1, 1]
      List.reverse id (some (some file)) = .ok ⟨-47, dec⟩ := by
  have hm : file.length % 2 ^ 32 = 4 * 65536 := by omega
  obtain ⟨dec, d1, d2, d3⟩ := (C76_outcome (C76_contract .little .little (fun _ => ojunk0) fun _ => junk0) true pgAddrs0
    (j := pgJunk0 2) (avail := 2 ^ 40) (p := 4) (ts := [1, 1]) (sched1 := List.reverse) (sched2 := id) (file := file) (by
      rw [hm]
      exact ⟨by decide, by decide, by decide, by decide, fun _ => List.length_replicate, fun _ => List.length_replicate,
        fun l => l.reverse_perm, fun l => .refl l⟩) (by omega) (by omega) 131072 1 (by rw [hm]; decide) (by decide)).2
    (by decide)
  refine ⟨dec, ?_⟩
  rw [if_neg] at d3
  · exact d3
  · intro hdec
    have h0 := d2 0 1 rfl
    rw [hdec, List.getElem?_map] at h0
    have h0 : some (pgPart file 131072 0) = _ := h0
    injection h0 with h0
    have h1 := congrArg (·[65536]?) h0
    have hpl : (pgPart file 131072 0).length = 131072 := Pg.length_padTo _ _
    rw [List.getElem?_append_right (by rw [List.length_take, hpl]; decide), List.length_take, hpl, List.getElem?_replicate,
      if_pos (by decide)] at h1
    rw [show pgPart file 131072 0 = Pg.padTo 131072 (file.drop (0 * 131072)) from rfl, Pg.get_padTo _ _ _ (by decide),
      Nat.zero_mul, List.drop_zero, List.getD_eq_getElem?_getD, List.getElem?_eq_getElem (by omega)] at h1
    rw [List.getElem?_eq_getElem (by omega)] at hnz
    exact hnz h1

example : ∃ dec, pgMain true (optC .little (fun _ => ojunk0) fun _ => junk0) (optD .little) pgAddrs0 (pgJunk0 2) (2 ^ 40) 4 [1, 1]
    List.reverse id (some (some (List.replicate (4 * 65536) 1))) = .ok ⟨-47, dec⟩ :=
  C76_idle_cpus_false _ List.length_replicate (by rw [List.getElem?_replicate, if_pos (by decide)]; decide)

/-- A file of 2^32 + 5 bytes, of which 128 KiB are processed -/
example : ∃ dec n, pgMain false (optC .little (fun _ => ojunk0) fun _ => junk0) (optD .little) pgAddrs0 (pgJunk0 1) (2 ^ 40) 2 [1, 1]
    List.reverse id (some (some (List.replicate (2 ^ 32 + 5) 1))) = .ok ⟨0, dec⟩ ∧
    dec.flatten = (List.replicate (2 ^ 32 + 5) 1).take n ∧ n < 5 + 65536 * 2 ∧ n < 2 ^ 32 + 5 := by
  have hl : (List.replicate (2 ^ 32 + 5) (1 : Byte)).length = 2 ^ 32 + 5 := List.length_replicate
  generalize List.replicate (2 ^ 32 + 5) (1 : Byte) = file at *
  have hm : file.length % 2 ^ 32 = 5 := by omega
  have := C76_large_file_false (C76_contract .little .little (fun _ => ojunk0) fun _ => junk0) false pgAddrs0
    (j := pgJunk0 1) (avail := 2 ^ 40) (p := 2) (ts := [1, 1]) (sched1 := List.reverse) (sched2 := id) (file := file) (by
      rw [hm]
      exact ⟨by decide, by decide, by decide, by decide, fun _ => List.length_replicate, fun _ => List.length_replicate,
        fun l => l.reverse_perm, fun l => .refl l⟩) (by omega) (by omega) (by omega) 1 (by decide) (by decide) (by decide)
  rw [hm, hl] at this
  exact this

end Lib842.Props
