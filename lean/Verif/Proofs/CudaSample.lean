import Verif.Model.CudaSample
import Verif.Props.Cuda
import Verif.Proofs.StreamBlock
/-!
# Lemmas on the CUDA sample
-/

namespace Lib842
open Spec

/-- What the CUDA sample expects of the compressor: with twice as much room as data it succeeds, and produces a stream
of the hardware format. -/
structure CuContract (f : ChunkFn) : Prop where
  comp : ∀ a o src dst, src.length % 8 = 0 → 0 < src.length → src.length ≤ 1024 → dst.length = 2 * src.length →
    ∃ n buf, f a o src dst = .ret none n buf ∧ buf.length = dst.length ∧ n ≤ buf.length ∧ n % 8 = 0 ∧ HwDecodes (buf.take n) src

namespace Cu

/-- The 1024 bytes of chunk `i` -/
def chunk (inp : List Byte) (i : Nat) : List Byte := (inp.drop (1024 * i)).take 1024
/-- The 2048 bytes for the stream of chunk `i` -/
def slot (comp : List Byte) (i : Nat) : List Byte := (comp.drop (2048 * i)).take 2048

theorem length_chunk {inp : List Byte} {i : Nat} (h : 1024 * i + 1024 ≤ inp.length) : (chunk inp i).length = 1024 := by
  unfold chunk
  rw [List.length_take, List.length_drop]
  exact Nat.min_eq_left (by omega)

theorem length_slot {inp : List Byte} {i : Nat} (h : 2048 * i + 2048 ≤ inp.length) : (slot inp i).length = 2048 := by
  unfold slot
  rw [List.length_take, List.length_drop]
  exact Nat.min_eq_left (by omega)

/-- Slot `i` has a stream for `x`. -/
def Slot (comp : List Byte) (i : Nat) (x : List Byte) : Prop :=
  ∃ n, n % 8 = 0 ∧ n ≤ 2048 ∧ 2048 * i + n ≤ comp.length ∧ HwDecodes ((comp.drop (2048 * i)).take n) x

attribute [local irreducible] chunk slot in
theorem compress_step {f : ChunkFn} (hc : CuContract f) (ain aout : Nat) {inp : List Byte} {num : Nat}
    (hin : inp.length = 1024 * num) {m : List Byte × List Nat} (hm1 : m.1.length = 2048 * num) (hm2 : m.2.length = num)
    {i : Nat} (hi : i < num) :
    ∃ m', cuCompress f ain aout inp i m = .ok m' ∧ m'.1.length = 2048 * num ∧ m'.2.length = num ∧
      Slot m'.1 i (chunk inp i) ∧ ∀ k x, k ≠ i → Slot m.1 k x → Slot m'.1 k x := by
  have hb1 : 1024 * i + 1024 ≤ inp.length := by
    rw [hin, ← Nat.mul_succ]; exact Nat.mul_le_mul_left _ hi
  have hb2 : 2048 * i + 2048 ≤ m.1.length := by
    rw [hm1, ← Nat.mul_succ]; exact Nat.mul_le_mul_left _ hi
  have l1 := length_chunk hb1
  have l2 := length_slot hb2
  obtain ⟨n, buf, h1, h2, h3, h4, h5⟩ := hc.comp (ain + 1024 * i) (aout + 2048 * i) (chunk inp i) (slot m.1 i)
    (by rw [l1]) (by rw [l1]; decide) (by rw [l1]) (by rw [l1, l2])
  rw [l2] at h2
  obtain ⟨out, hw⟩ := writeBytes_some (m := m.1) (bs := buf) (i := 2048 * i) (by rw [h2]; exact hb2)
  have hw' := writeBytes_get hw
  refine ⟨(out, m.2.set i n), ?_, hw'.1.trans hm1, by rw [List.length_set]; exact hm2, ?_, ?_⟩
  · unfold cuCompress
    show BRes.bind (BRes.access (readBytes inp (1024 * i) 1024)) _ = _
    rw [readBytes_ok hb1]
    show BRes.bind (BRes.access (readBytes m.1 (2048 * i) 2048)) _ = _
    rw [readBytes_ok hb2]
    have h1' := h1
    unfold chunk slot at h1'
    simp only [BRes.access, BRes.bind]
    rw [show ain + cudaChunkSize * i = ain + 1024 * i from rfl, show aout + cudaChunkSize * 2 * i = aout + 2048 * i from rfl, h1']
    simp only
    rw [show cudaChunkSize * 2 * i = 2048 * i from rfl, hw,
      show m.2[i]? = some (m.2[i]'(by rw [hm2]; exact hi)) from List.getElem?_eq_getElem _]
    rfl
  · refine ⟨n, h4, by omega, by simp only; omega, ?_⟩
    have : (out.drop (2048 * i)).take n = buf.take n := by
      apply List.ext_getElem?
      intro q
      by_cases hq : q < n
      · rw [List.getElem?_take_of_lt hq, List.getElem?_take_of_lt hq, List.getElem?_drop, hw'.2, if_pos (by omega)]
        congr 1; omega
      · rw [List.getElem?_eq_none (by rw [List.length_take]; omega), List.getElem?_eq_none (by rw [List.length_take]; omega)]
    simp only
    rw [this]
    exact h5
  · rintro k x hk ⟨n', g1, g2, g3, g4⟩
    refine ⟨n', g1, g2, by rw [hw'.1]; exact g3, ?_⟩
    have : (out.drop (2048 * k)).take n' = (m.1.drop (2048 * k)).take n' := by
      apply List.ext_getElem?
      intro q
      by_cases hq : q < n'
      · rw [List.getElem?_take_of_lt hq, List.getElem?_take_of_lt hq, List.getElem?_drop, List.getElem?_drop, hw'.2,
          if_neg (by omega)]
      · rw [List.getElem?_eq_none (by rw [List.length_take]; omega), List.getElem?_eq_none (by rw [List.length_take]; omega)]
    simp only
    rw [this]
    exact g4

theorem compress_all {f : ChunkFn} (hc : CuContract f) (ain aout : Nat) {inp : List Byte} {num : Nat}
    (hin : inp.length = 1024 * num) : ∀ (l : List Nat) (m : List Byte × List Nat), (∀ i ∈ l, i < num) →
      m.1.length = 2048 * num → m.2.length = num →
      ∃ m', forEach (cuCompress f ain aout inp) l m = .ok m' ∧ m'.1.length = 2048 * num ∧
        (∀ i ∈ l, Slot m'.1 i (chunk inp i)) ∧ ∀ i, Slot m.1 i (chunk inp i) → Slot m'.1 i (chunk inp i) := by
  intro l
  induction l with
  | nil => intro m _ h1 _; exact ⟨m, rfl, h1, by simp, fun _ h => h⟩
  | cons i l ih =>
    intro m hl h1 h2
    obtain ⟨m1, a1, a2, a3, a4, a5⟩ := compress_step hc ain aout hin h1 h2 (hl i (List.mem_cons_self ..))
    obtain ⟨m', b1, b2, b3, b4⟩ := ih m1 (fun k hk => hl k (List.mem_cons_of_mem _ hk)) a2 a3
    refine ⟨m', ?_, b2, ?_, ?_⟩
    · show BRes.bind (cuCompress f ain aout inp i m) _ = _
      rw [a1]
      exact b1
    · intro k hk
      rcases List.mem_cons.1 hk with rfl | hk
      · exact b4 _ a4
      · exact b3 k hk
    · intro k hk
      by_cases hki : k = i
      · subst hki; exact b4 _ a4
      · exact b4 _ (a5 k _ hki hk)

theorem flatten_chunks (inp : List Byte) (num : Nat) (h : inp.length = 1024 * num) :
    ((List.range num).map (chunk inp)).flatten = inp := by
  have : ∀ k ≤ num, ((List.range k).map (chunk inp)).flatten = inp.take (1024 * k) := by
    intro k
    induction k with
    | zero => intro _; simp
    | succ k ih =>
      intro hk
      rw [List.range_succ, List.map_append, List.flatten_append, ih (by omega), Nat.mul_succ, List.take_add]
      simp [chunk]
  rw [this num (Nat.le_refl _), List.take_of_length_le (by omega)]

theorem flatten_from (inp : List Byte) (k n : Nat) :
    ((List.range n).map fun i => chunk inp (k + i)).flatten = (inp.drop (1024 * k)).take (1024 * n) := by
  induction n with
  | zero => simp
  | succ n ih =>
    rw [List.range_succ, List.map_append, List.flatten_append, ih, Nat.mul_succ, List.take_add, List.drop_drop, ← Nat.mul_add]
    simp [chunk]

theorem drop_rep {pre : List Byte} {p n b c : Nat} (hp : pre.length = p) (hn : n = b + c) :
    (pre ++ List.replicate n 0).drop p = List.replicate b 0 ++ List.replicate c 0 := by
  subst hp hn
  simp

theorem take_rep {pre : List Byte} {p n : Nat} (hp : pre.length = p) : (pre ++ List.replicate n 0).take p = pre := by
  subst hp
  simp

theorem slot_drop {comp : List Byte} {i k : Nat} {x : List Byte} (h : Slot comp (k + i) x) : Slot (comp.drop (2048 * k)) i x := by
  obtain ⟨n, h1, h2, h3, h4⟩ := h
  refine ⟨n, h1, h2, by rw [List.length_drop]; omega, ?_⟩
  rw [List.drop_drop, ← Nat.mul_add]
  exact h4

/-- The launches of the unified version -/
theorem unified_all {inp comp : List Byte} {K : Nat} (hin : inp.length = 1048576 * K)
    (hslot : ∀ i < 1024 * K, Slot comp i (chunk inp i)) (ord : Nat → List Nat → List Nat) (hord : ∀ k l, (ord k l).Perm l) :
    ∀ n k, k + n ≤ K → forEach (fun k => cuLaunchAt comp (ord k) 1024 (k * 1024)) (List.range' k n)
        (inp.take (1048576 * k) ++ List.replicate (inp.length - 1048576 * k) 0) =
      .ok (inp.take (1048576 * (k + n)) ++ List.replicate (inp.length - 1048576 * (k + n)) 0) := by
  intro n
  induction n with
  | zero => intro k hk; rfl
  | succ n ih =>
    intro k hk
    rw [List.range'_succ]
    have hle : 1048576 * k + 1048576 ≤ inp.length := by
      rw [hin, ← Nat.mul_succ]; exact Nat.mul_le_mul_left _ (by omega)
    have hcl : 2048 * (1024 * k) ≤ comp.length := by
      obtain ⟨n, -, -, h, -⟩ := hslot (1024 * k) (by omega)
      omega
    have hlen : (inp.take (1048576 * k)).length = 1048576 * k := by rw [List.length_take]; exact Nat.min_eq_left (by omega)
    have hbody : cuLaunchAt comp (ord k) 1024 (k * 1024) (inp.take (1048576 * k) ++ List.replicate (inp.length - 1048576 * k) 0) =
        .ok (inp.take (1048576 * (k + 1)) ++ List.replicate (inp.length - 1048576 * (k + 1)) 0) := by
      unfold cuLaunchAt
      have e1 : 8 * (k * 1024 * (cudaChunkSize / 8) * 2) = 2048 * (1024 * k) := by
        show 8 * (k * 1024 * 128 * 2) = _; omega
      have e2 : 8 * (k * 1024 * (cudaChunkSize / 8)) = 1048576 * k := by
        show 8 * (k * 1024 * 128) = _; omega
      rw [e1, e2]
      simp only [ptrAdd]
      rw [if_pos hcl, if_pos (by rw [List.length_append, hlen]; omega)]
      simp only [bind, BRes.bind, Option.getD_some]
      have hd := drop_rep (b := 1048576) (c := inp.length - 1048576 * (k + 1)) hlen
        (show inp.length - 1048576 * k = _ by omega)
      have ht := take_rep (n := inp.length - 1048576 * k) hlen
      rw [hd, ht, show 1024 / 32 * 32 = 1024 from rfl]
      have hx : ∀ i < 1024, (chunk inp (1024 * k + i)).length = 1024 := fun i hi => length_chunk (by omega)
      have hxl : ((List.range 1024).map fun i => chunk inp (1024 * k + i)).length = 1024 := by
        rw [List.length_map, List.length_range]
      have := Props.C47_cuda_launch_full_partial (comp.drop (2048 * (1024 * k))) (List.replicate 1048576 0)
        (List.replicate (inp.length - 1048576 * (k + 1)) 0) ((List.range 1024).map fun i => chunk inp (1024 * k + i))
        (by
          intro x hx'
          obtain ⟨i, hi, rfl⟩ := List.mem_map.1 hx'
          exact hx i (List.mem_range.1 hi))
        (by
          intro i x hi
          rw [List.getElem?_map] at hi
          cases hr : (List.range 1024)[i]? with
          | none => rw [hr] at hi; cases hi
          | some i' =>
            have hr' := List.getElem?_eq_some_iff.1 hr
            obtain ⟨hil, hie⟩ := hr'
            rw [List.length_range] at hil
            rw [List.getElem_range] at hie
            subst hie
            rw [hr] at hi
            cases hi
            obtain ⟨n, h1, h2, h3, h4⟩ := slot_drop (hslot (1024 * k + i) (by omega))
            exact ⟨n, h1, h3, h4⟩)
        (by rw [hxl]; decide) (ord k (List.range 1024)) (by rw [hxl]; exact hord k (List.range 1024))
        (by rw [hxl]; exact List.length_replicate)
      rw [this]
      simp only [BRes.access]
      have hfl := flatten_from inp (1024 * k) 1024
      rw [show 1024 * (1024 * k) = 1048576 * k by omega, show 1024 * 1024 = 1048576 from rfl] at hfl
      rw [hfl, ← List.append_assoc, ← List.take_add, ← Nat.mul_succ]
    show BRes.bind (cuLaunchAt comp (ord k) 1024 (k * 1024) _) _ = _
    rw [hbody]
    have := ih (k + 1) (by omega)
    rw [show k + 1 + n = k + (n + 1) by omega] at this
    exact this

/-- Chunks whose number wraps at `M` -/
theorem flatten_wrap (inp : List Byte) (M num : Nat) (hM : 0 < M) (hnum : num ≤ 2 * M) (hin : inp.length = 1024 * num) :
    ((List.range num).map fun i => chunk inp (i % M)).flatten = inp.take (1024 * M) ++ inp.take (inp.length - 1024 * M) := by
  by_cases h : num ≤ M
  · have : ((List.range num).map fun i => chunk inp (i % M)) = (List.range num).map (chunk inp) := by
      apply List.map_congr_left
      intro i hi
      rw [Nat.mod_eq_of_lt (Nat.lt_of_lt_of_le (List.mem_range.1 hi) h)]
    have hle : inp.length ≤ 1024 * M := by rw [hin]; exact Nat.mul_le_mul_left _ h
    rw [this, flatten_chunks inp num hin, List.take_of_length_le hle, Nat.sub_eq_zero_of_le hle, List.take_zero, List.append_nil]
  · obtain ⟨b, rfl⟩ := Nat.exists_eq_add_of_le (Nat.le_of_lt (Nat.lt_of_not_le h))
    have h1 : ((List.range M).map fun i => chunk inp (i % M)) = (List.range M).map fun i => chunk inp (0 + i) := by
      apply List.map_congr_left
      intro i hi
      rw [Nat.mod_eq_of_lt (List.mem_range.1 hi), Nat.zero_add]
    have h2 : (((List.range b).map (M + ·)).map fun i => chunk inp (i % M)) = (List.range b).map fun i => chunk inp (0 + i) := by
      rw [List.map_map]
      apply List.map_congr_left
      intro i hi
      have := List.mem_range.1 hi
      show chunk inp ((M + i) % M) = _
      rw [Nat.add_mod_left, Nat.mod_eq_of_lt (by omega), Nat.zero_add]
    rw [List.range_add, List.map_append, List.flatten_append, h1, h2, flatten_from, flatten_from, Nat.mul_zero, List.drop_zero,
      hin, Nat.mul_add, Nat.add_sub_cancel_left]

theorem finish_ok {inp dec : List Byte} (h : dec.length = inp.length) : cuFinish inp dec = .ok ⟨decide (inp = dec), 0, dec⟩ := by
  unfold cuFinish
  rw [readBytes_ok (by omega)]
  simp only [BRes.access, bind, BRes.bind]
  rw [List.drop_zero, List.take_of_length_le (by omega)]

theorem default_ok {f : ChunkFn} (hc : CuContract f) (ain aout : Nat) (sizes : List Nat) (ord1 : List Nat → List Nat)
    (ord2 : Nat → List Nat → List Nat) (ho1 : ∀ l, (ord1 l).Perm l) (ho2 : ∀ k l, (ord2 k l).Perm l) {inp : List Byte} {num : Nat}
    (hin : inp.length = 1024 * num) (h32 : num % 32 = 0) (hs : sizes.length = num) (hnum : num ≤ 2 ^ 25) :
    cuMany false f ain aout sizes ord1 ord2 inp (inp.length * 2) =
      .ok ⟨decide (inp = inp.take (2 ^ 34) ++ inp.take (inp.length - 2 ^ 34)), 0,
        inp.take (2 ^ 34) ++ inp.take (inp.length - 2 ^ 34)⟩ := by
  have hdiv : inp.length / cudaChunkSize = num := by rw [hin]; exact Nat.mul_div_cancel_left _ (by decide)
  obtain ⟨m, h1, h2, h3, -⟩ := compress_all hc ain aout hin (ord1 (List.range num)) (List.replicate (inp.length * 2) 0, sizes)
    (fun i hi => List.mem_range.1 ((ho1 _).mem_iff.1 hi)) (by simp only [List.length_replicate]; omega) hs
  have hlen : ∀ i < num, (chunk inp i).length = 1024 := fun i hi => length_chunk (by omega)
  have hmod : ∀ i < num, i % 2 ^ 24 < num := fun i hi => Nat.lt_of_le_of_lt (Nat.mod_le _ _) hi
  have hxl : ((List.range num).map fun i => chunk inp (i % 2 ^ 24)).length = num := by rw [List.length_map, List.length_range]
  have hcs : (List.replicate num (List.replicate 1024 (0 : Byte))).flatten = List.replicate inp.length 0 := by
    rw [List.flatten_replicate_replicate, hin, Nat.mul_comm]
  have hl := Props.C47_cuda_launch_wraps m.1 [] ((List.range num).map fun i => chunk inp (i % 2 ^ 24))
    (by
      intro x hx
      obtain ⟨i, hi, rfl⟩ := List.mem_map.1 hx
      rw [hlen _ (hmod i (List.mem_range.1 hi))])
    (by
      intro i x hi
      have hil : i < num := by have := (List.getElem?_eq_some_iff.1 hi).1; rwa [hxl] at this
      rw [List.getElem?_map, List.getElem?_range hil] at hi
      cases hi
      obtain ⟨n, g1, -, g3, g4⟩ := h3 (i % 2 ^ 24) ((ho1 _).mem_iff.2 (List.mem_range.2 (hmod i hil)))
      exact ⟨n, g1, g3, g4⟩)
    (by rw [hxl]; exact hnum) (ord2 0 (List.range num)) (by rw [hxl]; exact ho2 0 _)
    (List.replicate num (List.replicate 1024 0)) (by rw [hxl, List.length_replicate])
    (fun c hc => by rw [(List.mem_replicate.1 hc).2, List.length_replicate])
  have hz : List.zipWith (fun x c => x ++ c.drop x.length) ((List.range num).map fun i => chunk inp (i % 2 ^ 24))
      (List.replicate num (List.replicate 1024 (0 : Byte))) = (List.range num).map fun i => chunk inp (i % 2 ^ 24) := by
    apply List.ext_getElem?
    intro i
    rw [List.getElem?_zipWith]
    by_cases hi : i < num
    · rw [List.getElem?_map, List.getElem?_range hi, List.getElem?_replicate, if_pos hi]
      show some (_ ++ List.drop (chunk inp (i % 2 ^ 24)).length _) = _
      rw [hlen _ (hmod i hi), List.drop_of_length_le (by rw [List.length_replicate]), List.append_nil]
      rfl
    · rw [List.getElem?_eq_none (by rw [hxl]; omega)]
  rw [hz, hcs, flatten_wrap inp (2 ^ 24) num (by decide) (by omega) hin, List.append_nil, List.append_nil] at hl
  rw [show 1024 * 2 ^ 24 = 2 ^ 34 from rfl] at hl
  unfold cuMany
  simp only [hdiv, bind, h1, BRes.bind]
  rw [show num / 32 * 32 = num by omega, hl]
  simp only [BRes.access, Bool.false_eq_true, if_false, BRes.bind]
  apply finish_ok
  rw [List.length_append, List.length_take, List.length_take]
  omega

theorem unified_ok {f : ChunkFn} (hc : CuContract f) (ain aout : Nat) (sizes : List Nat) (ord1 : List Nat → List Nat)
    (ord2 : Nat → List Nat → List Nat) (ho1 : ∀ l, (ord1 l).Perm l) (ho2 : ∀ k l, (ord2 k l).Perm l) {inp : List Byte} {K : Nat}
    (hin : inp.length = 1048576 * K) (hs : sizes.length = 1024 * K) :
    cuMany true f ain aout sizes ord1 ord2 inp (inp.length * 2) = .ok ⟨true, 0, inp⟩ := by
  have hin' : inp.length = 1024 * (1024 * K) := by omega
  have hdiv : inp.length / cudaChunkSize = 1024 * K := by rw [hin']; exact Nat.mul_div_cancel_left _ (by decide)
  obtain ⟨m, h1, h2, h3, -⟩ := compress_all hc ain aout hin' (ord1 (List.range (1024 * K))) (List.replicate (inp.length * 2) 0, sizes)
    (fun i hi => List.mem_range.1 ((ho1 _).mem_iff.1 hi)) (by simp only [List.length_replicate]; omega) hs
  have h := unified_all hin (fun i hi => h3 i ((ho1 _).mem_iff.2 (List.mem_range.2 hi))) ord2 ho2 K 0 (by omega)
  rw [← List.range_eq_range', Nat.mul_zero, List.take_zero, List.nil_append, Nat.sub_zero, Nat.zero_add,
    ← hin, List.take_length, Nat.sub_self, List.replicate_zero, List.append_nil] at h
  unfold cuMany
  simp only [hdiv, bind, h1, BRes.bind]
  rw [show cuChunksPerThread true * 32 = 1024 from rfl, show (1024 * K + 1024 - 1) / 1024 = K by omega, h]
  simp only [if_true, BRes.bind]
  rw [finish_ok rfl]
  simp

theorem one_ok {f : ChunkFn} (hc : CuContract f) (unified : Bool) (ain aout : Nat) {inp : List Byte} (h8 : inp.length % 8 = 0)
    (h0 : 0 < inp.length) (h1 : inp.length ≤ 1024) : cuOne unified f ain aout inp (inp.length * 2) = .ok ⟨true, 0, inp⟩ := by
  obtain ⟨n, buf, e1, e2, e3, e4, e5⟩ := hc.comp ain aout inp (List.replicate (inp.length * 2) 0) h8 h0 h1
    (by rw [List.length_replicate, Nat.mul_comm])
  have key : ∀ dev : List Byte, n ≤ dev.length → dev.take n = buf.take n →
      cudaLaunch dev [0] (List.replicate inp.length 0) = some inp := by
    intro dev hd ht
    have := Props.C47_cuda_thread dev (List.replicate inp.length 0) inp n e4 hd (by rw [ht]; exact e5)
      (by rw [List.length_replicate])
    rw [List.drop_of_length_le (by rw [List.length_replicate]), List.append_nil] at this
    show (cudaChunk dev (List.replicate inp.length 0) 0).bind some = _
    unfold cudaChunk
    simp only [Nat.mul_zero, Nat.zero_mod, List.drop_zero, this]
    simp
  unfold cuOne
  rw [e1]
  have hf := finish_ok (inp := inp) (dec := inp) rfl
  rw [decide_eq_true rfl] at hf
  cases unified
  · simp only [bind, Bool.false_eq_true, if_false]
    rw [readBytes_ok (by omega)]
    simp only [BRes.access, BRes.bind, List.drop_zero]
    rw [key _ (by rw [List.length_append, List.length_take]; omega)
      (by rw [List.take_append_of_le_length (by rw [List.length_take]; omega), List.take_take, Nat.min_self])]
    exact hf
  · simp only [bind, if_true, BRes.bind]
    rw [key buf e3 rfl]
    exact hf

/-- Rounding up to a multiple of a power of two -/
theorem nextMultiple_pow {n k : Nat} (hk : k ≤ 62) (h : n < 2 ^ 63) :
    nextMultipleOfChunkSize n (2 ^ k) = (n + (2 ^ k - 1)) / 2 ^ k * 2 ^ k := by
  unfold nextMultipleOfChunkSize
  have hk' : 2 ^ k ≤ 2 ^ 62 := Nat.pow_le_pow_right (by decide) hk
  have hp : 0 < 2 ^ k := Nat.two_pow_pos k
  have h1 : (BitVec.ofNat 64 (2 ^ k) - 1) = BitVec.ofNat 64 (2 ^ k - 1) := by
    apply BitVec.eq_of_toNat_eq
    rw [BitVec.toNat_sub, BitVec.toNat_ofNat, BitVec.toNat_ofNat, show (1 : BitVec 64).toNat = 1 from rfl]
    omega
  rw [h1]
  have h2 : ∀ x : BitVec 64, x &&& ~~~(BitVec.ofNat 64 (2 ^ k - 1)) = (x >>> k) <<< k := by
    intro x
    apply BitVec.eq_of_getLsbD_eq
    intro i hi
    rw [BitVec.getLsbD_and, BitVec.getLsbD_not, BitVec.getLsbD_ofNat, Nat.testBit_two_pow_sub_one, BitVec.getLsbD_shiftLeft,
      BitVec.getLsbD_ushiftRight]
    by_cases h16 : i < k
    · simp [h16]
    · simp [h16, hi, show k + (i - k) = i by omega]
  rw [h2, BitVec.toNat_shiftLeft, BitVec.toNat_ushiftRight, BitVec.toNat_add, BitVec.toNat_ofNat, BitVec.toNat_ofNat,
    Nat.shiftLeft_eq, Nat.shiftRight_eq_div_pow, Nat.mod_eq_of_lt (a := n) (by omega), Nat.mod_eq_of_lt (a := 2 ^ k - 1) (by omega),
    Nat.mod_eq_of_lt (a := n + (2 ^ k - 1)) (by omega)]
  apply Nat.mod_eq_of_lt
  have := Nat.div_mul_le_self (n + (2 ^ k - 1)) (2 ^ k)
  omega

theorem readFile_ok {file : List Byte} {k : Nat} (hk : k ≤ 62) (h : file.length < 2 ^ 63) :
    readFile file (2 ^ k) = .ok (file ++ List.replicate ((file.length + (2 ^ k - 1)) / 2 ^ k * 2 ^ k - file.length) 0) := by
  unfold readFile
  rw [nextMultiple_pow hk h]
  have hp : 0 < 2 ^ k := Nat.two_pow_pos k
  have hle : file.length ≤ (file.length + (2 ^ k - 1)) / 2 ^ k * 2 ^ k := by
    have := Nat.div_add_mod (file.length + (2 ^ k - 1)) (2 ^ k)
    have h3 := Nat.mod_lt (file.length + (2 ^ k - 1)) hp
    rw [Nat.mul_comm] at this
    omega
  generalize (file.length + (2 ^ k - 1)) / 2 ^ k * 2 ^ k = p at hle
  obtain ⟨out, hw⟩ := writeBytes_some (m := List.replicate p 0) (bs := file) (i := 0) (by rw [List.length_replicate]; omega)
  obtain ⟨g1, g2⟩ := writeBytes_get hw
  rw [hw]
  simp only [BRes.access]
  congr 1
  apply List.ext_getElem?
  intro q
  rw [g2]
  by_cases hq : q < file.length
  · rw [if_pos (by omega), List.getElem?_append_left hq, Nat.sub_zero]
  · rw [if_neg (by omega), List.getElem?_append_right (by omega), List.getElem?_replicate, List.getElem?_replicate]
    by_cases hqp : q < p
    · rw [if_pos hqp, if_pos (by omega)]
    · rw [if_neg hqp, if_neg (by omega)]

end Cu
end Lib842
