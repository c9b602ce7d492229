import Verif.SpecMem
import Verif.Props.StreamBlock
import Verif.Props.CompStream
import Verif.Props.DecompStream
/-!
# Round trip through a compression stream and a decompression stream

C39.
-/

namespace Lib842.Props
open Lib842 Spec

/-- No block ends more often than it has begun. -/
def EndsOk : List DEv → Prop
  | [] => True
  | .ended b _ :: tr => (ends tr).count b < (begins tr).count b ∧ EndsOk tr
  | _ :: tr => EndsOk tr

theorem endsOk_curOp : ∀ l, DTraceOk l → EndsOk (dcurOp l)
  | [], _ => trivial
  | e :: l, ⟨h1, h2⟩ => by
    have ih := endsOk_curOp l h2
    cases e with
    | start => trivial
    | ended b ok => exact ⟨h1.2, ih⟩
    | _ => exact ih

theorem endsOk_le : ∀ tr, EndsOk tr → ∀ b, (ends tr).count b ≤ (begins tr).count b
  | [], _, _ => Nat.le_refl _
  | e :: tr, h, b => by
    cases e with
    | ended b' ok =>
      have h1 := h.1
      have h2 := endsOk_le tr h.2 b
      show (b' :: ends tr).count b ≤ (begins tr).count b
      rw [List.count_cons]
      split
      · rename_i hx
        have : b' = b := by simpa using hx
        subst this
        omega
      · exact h2
    | begin b' =>
      have h2 := endsOk_le tr h b
      show (ends tr).count b ≤ (b' :: begins tr).count b
      rw [List.count_cons]
      omega
    | _ => exact endsOk_le tr h b

/-- The blocks of an operation whose regions are disjoint, and a `handle` that fills in the data. -/
theorem memRun_inv {handle : Nat → List Byte → Bool → List Byte → Prop} {inp out0 : List Byte} {O : List Nat}
    (hO : ∀ b ∈ O, b % blockSize = 0)
    (hh : ∀ b ∈ O, ∀ m ok m', m.length = out0.length → handle b m ok m' →
      ok = true ∧ m'.length = m.length ∧ (∀ i, inRegion b i → m'[i]? = inp[i]?) ∧
      ∀ i, ¬ inRegion b i → m'[i]? = m[i]?)
    {tr : List DEv} {m : List Byte} (h : MemRun handle out0 tr m) (he : EndsOk tr)
    (h1 : ∀ b, (begins tr).count b ≤ 1) (h2 : ∀ b ∈ begins tr, b ∈ O) :
    m.length = out0.length ∧ (∀ b ∈ ends tr, ∀ i, inRegion b i → m[i]? = inp[i]?) ∧
    (∀ i, (∀ b ∈ begins tr, ¬ inRegion b i) → m[i]? = out0[i]?) ∧
    ∀ b ok, .ended b ok ∈ tr → ok = true := by
  have hdis : ∀ b ∈ O, ∀ b' ∈ O, ∀ i, inRegion b i → inRegion b' i → b = b' := by
    intro b hb b' hb' i hi hi'
    have e1 := hO b hb
    have e2 := hO b' hb'
    unfold inRegion blockSize at *
    omega
  -- bytes of ended blocks and bytes outside of all blocks are not touched by running blocks
  have hflux : ∀ tr m m', EndsOk tr → (∀ b, (begins tr).count b ≤ 1) → (∀ b ∈ begins tr, b ∈ O) →
      Flux tr m m' → (∀ b ∈ ends tr, ∀ i, inRegion b i → m'[i]? = (m : List Byte)[i]?) ∧
      ∀ i, (∀ b ∈ begins tr, ¬ inRegion b i) → m'[i]? = m[i]? := by
    intro tr m m' he h1 h2 hf
    refine ⟨fun b hb i hi => hf.2 i fun b' hr hi' => ?_, fun i hi => hf.2 i fun b' hr => hi b' ?_⟩
    · have hle := endsOk_le tr he
      have hb0 : 0 < (ends tr).count b := List.count_pos_iff.2 hb
      have hb1 : 0 < (begins tr).count b := Nat.lt_of_lt_of_le hb0 (hle b)
      have hr' : (ends tr).count b' < (begins tr).count b' := hr
      have hb2 : 0 < (begins tr).count b' := by omega
      have := hdis b (h2 b (List.count_pos_iff.1 hb1)) b' (h2 b' (List.count_pos_iff.1 hb2)) i hi hi'
      subst this
      have := h1 b
      omega
    · have hr' : (ends tr).count b' < (begins tr).count b' := hr
      exact List.count_pos_iff.1 (by omega)
  induction h with
  | nil => exact ⟨rfl, fun b hb => (by cases hb), fun _ _ => rfl, fun b ok hb => (by cases hb)⟩
  | @other tr m m' e hm hne hf ih =>
    have hends : ends (e :: tr) = ends tr := by
      cases e with
      | ended b ok => exact absurd rfl (hne b ok)
      | _ => rfl
    have hbeg : ∀ b ∈ begins tr, b ∈ begins (e :: tr) := by
      intro b hb
      cases e with
      | begin b' => exact List.mem_cons_of_mem _ hb
      | _ => exact hb
    have hcnt : ∀ b, (begins tr).count b ≤ (begins (e :: tr)).count b := by
      intro b
      cases e with
      | begin b' => exact List.count_le_count_cons
      | _ => exact Nat.le_refl _
    have he' : EndsOk tr := by
      cases e with
      | ended b ok => exact absurd rfl (hne b ok)
      | _ => exact he
    obtain ⟨i1, i2, i3, i4⟩ := ih he' (fun b => Nat.le_trans (hcnt b) (h1 b)) (fun b hb => h2 b (hbeg b hb))
    obtain ⟨f1, f2⟩ := hflux _ m m' he h1 h2 hf
    refine ⟨hf.1.trans i1, fun b hb i hi => ?_, fun i hi => ?_, fun b ok hb => ?_⟩
    · rw [f1 b hb i hi]
      exact i2 b (hends ▸ hb) i hi
    · rw [f2 i hi]
      exact i3 i fun b hb => hi b (hbeg b hb)
    · rcases List.mem_cons.1 hb with hx | hx
      · exact absurd hx.symm (hne b ok)
      · exact i4 b ok hx
  | @ended tr m m' m'' b ok hm hhb hf ih =>
    obtain ⟨i1, i2, i3, i4⟩ := ih he.2 h1 h2
    have hbO : b ∈ O := by
      have := he.1
      exact h2 b (List.count_pos_iff.1 (show 0 < (begins tr).count b by omega))
    have hbB : b ∈ begins tr := by
      have := he.1
      exact List.count_pos_iff.1 (show 0 < (begins tr).count b by omega)
    obtain ⟨g1, g2, g3, g4⟩ := hh b hbO m ok m' i1 hhb
    obtain ⟨f1, f2⟩ := hflux _ m' m'' he h1 h2 hf
    refine ⟨hf.1.trans (g2.trans i1), fun b' hb i hi => ?_, fun i hi => ?_, fun b' ok' hb => ?_⟩
    · rw [f1 b' hb i hi]
      rcases List.mem_cons.1 (show b' ∈ b :: ends tr from hb) with hx | hx
      · subst hx; exact g3 i hi
      · by_cases hbi : inRegion b i
        · exact g3 i hbi
        · rw [g4 i hbi]; exact i2 b' hx i hi
    · rw [f2 i hi, g4 i (hi b hbB)]
      exact i3 i hi
    · rcases List.mem_cons.1 hb with hx | hx
      · cases hx; exact g1
      · exact i4 b' ok' hx

section
variable {f g : ChunkFn} (hc : ChunkContract f g) {N N' E : Nat} (hE : EpochOk E) (inp out0 : List Byte)
  (blk : Nat → Block) (nd : Bool)
  -- a finished operation of a compression stream on the buffer `inp`, not cancelled
  {cs : CS N} (hcs : CReach (setEpoch E) cs) {lc2 lc1 : List Ev} {okc : Bool}
  (hcl : cs.log = lc2 ++ .finalized okc :: lc1) (hcd : .destroy ∉ lc1) (hcc : .finalize true ∉ curOp lc1)
  (hsz : opSize lc1 = inp.length)
  -- the blocks it has emitted
  (hblk : ∀ o ∈ offsets (curOp lc1), ∃ ptr abuf rets0 sizes0 buf0, rets0.length = 16 ∧ buf0.length = 2 ^ 20 ∧
    compBlock (trivialChunked f) ptr abuf inp o rets0 sizes0 buf0 = .ok (blk o))
  (hfail : ∀ o, .failBlock o ∈ curOp lc1 → (blk o).offset = 2 ^ 64 - 1)
  (hnd : nd = true ∨ ∀ o ∈ offsets (curOp lc1), ∀ i < 16, (blk o).sizes[i]? ≠ some 65536)

/-- `handle_block` of the decompression stream for the block emitted for offset `o`. -/
def handleBlk (nd : Bool) (g : ChunkFn) (blk : Nat → Block) (o : Nat) (m : List Byte) (ok : Bool) (m' : List Byte) :
    Prop :=
  ∃ ptr abuf rets, rets.length = 16 ∧ decompBlock nd (trivialChunked g) ptr abuf (blk o) rets m = .ok (ok, m')

include hc hE hcs hcl hcd hsz hblk

theorem offsets_facts : ∀ o ∈ offsets (curOp lc1), o % blockSize = 0 ∧ o + blockSize ≤ inp.length := by
  have ht := creach_trace (epochSetting_of hE) hcs (lc2 ++ [.finalized okc]) lc1 (by rw [hcl]; simp) hcd
  intro o ho
  have := (trace_offsets ht).2 o ho
  rw [hsz] at this
  exact this

/-- C39: the compression reports success. -/
theorem C39_compression_succeeds (hfail : ∀ o, .failBlock o ∈ curOp lc1 → (blk o).offset = 2 ^ 64 - 1) :
    okc = true := by
  cases hok : okc with
  | true => rfl
  | false =>
    exfalso
    subst hok
    obtain ⟨o, ho⟩ := (C34_finalize_callback hE hcs hcl hcd).2.2.2.1 rfl
    have hmem : o ∈ offsets (curOp lc1) := List.mem_filterMap.2 ⟨_, ho, rfl⟩
    obtain ⟨h1, h2⟩ := offsets_facts hc hE inp blk hcs hcl hcd hsz hblk o hmem
    obtain ⟨ptr, abuf, rets0, sizes0, buf0, q1, q2, q3⟩ := hblk o hmem
    obtain ⟨b, e1, e2, _⟩ := compBlock_holds hc ptr abuf inp o rets0 sizes0 buf0 h2 q1 q2
    rw [q3] at e1
    cases e1
    rw [hfail o ho] at e2
    subst e2
    revert h1
    decide

include hnd

/-- C39: `handle_block` never runs into undefined behaviour or a failed assertion, or reports an
error, for a block that was emitted, whatever the output buffer contains. -/
theorem C39_handle_total (o : Nat) (ho : o ∈ offsets (curOp lc1)) (m : List Byte)
    (hm : inp.length / blockSize * blockSize ≤ m.length) (ptr abuf : Nat) (rets : List (Option Errno))
    (hr : rets.length = 16) :
    decompBlock nd (trivialChunked g) ptr abuf (blk o) rets m =
      .ok (true, m.take o ++ (inp.drop o).take blockSize ++ m.drop (o + blockSize)) := by
  obtain ⟨h1, h2⟩ := offsets_facts hc hE inp blk hcs hcl hcd hsz hblk o ho
  obtain ⟨ptr0, abuf0, rets0, sizes0, buf0, q1, q2, q3⟩ := hblk o ho
  have hle : o + 2 ^ 20 ≤ m.length := by
    refine Nat.le_trans ?_ hm
    unfold blockSize at *
    omega
  rcases hnd with rfl | hx
  · exact C36_block_round_trip_partial hc ptr0 abuf0 ptr abuf inp o rets0 rets sizes0 buf0 h2 q1 q2 _ q3 m hr hle
  · cases nd with
    | true => exact C36_block_round_trip_partial hc ptr0 abuf0 ptr abuf inp o rets0 rets sizes0 buf0 h2 q1 q2 _ q3 m hr hle
    | false =>
      exact (C36_block_round_trip_debug hc ptr0 abuf0 ptr abuf inp o rets0 rets sizes0 buf0 h2 q1 q2 _ q3 m hr hle).2
        (hx o ho)

theorem handleBlk_spec (hout : inp.length / blockSize * blockSize ≤ out0.length) :
    ∀ b ∈ offsets (curOp lc1), ∀ m ok m', m.length = out0.length → handleBlk nd g blk b m ok m' →
      ok = true ∧ m'.length = m.length ∧ (∀ i, inRegion b i → m'[i]? = inp[i]?) ∧
      ∀ i, ¬ inRegion b i → m'[i]? = m[i]? := by
  rintro b hb m ok m' hl ⟨ptr, abuf, rets, hr, h⟩
  obtain ⟨h1, h2⟩ := offsets_facts hc hE inp blk hcs hcl hcd hsz hblk b hb
  have hle : b + blockSize ≤ m.length := by
    unfold blockSize at *
    omega
  rw [C39_handle_total hc hE inp blk nd hcs hcl hcd hsz hblk hnd b hb m (by omega) ptr abuf rets hr] at h
  cases h
  have ht : (m.take b).length = b := by rw [List.length_take]; omega
  have hd : ((inp.drop b).take blockSize).length = blockSize := by
    rw [List.length_take, List.length_drop]; omega
  refine ⟨rfl, by rw [List.length_append, List.length_append, ht, hd, List.length_drop]; omega, ?_, ?_⟩
  · rintro i ⟨hi1, hi2⟩
    rw [List.getElem?_append_left (by rw [List.length_append, ht, hd]; exact hi2),
      List.getElem?_append_right (by omega), ht, List.getElem?_take_of_lt (by omega), List.getElem?_drop,
      Nat.add_sub_cancel' hi1]
  · intro i hi
    by_cases hib : i < b
    · rw [List.getElem?_append_left (by rw [List.length_append, ht, hd]; omega),
        List.getElem?_append_left (by omega), List.getElem?_take_of_lt hib]
    · have : b + blockSize ≤ i := by
        unfold inRegion at hi
        omega
      rw [List.getElem?_append_right (by rw [List.length_append, ht, hd]; exact this), List.length_append, ht, hd,
        List.getElem?_drop, Nat.add_sub_cancel' this]

/-- C39: the runs of the next theorem exist: for every trace in which the blocks end successfully. -/
theorem C39_run_exists (hout : inp.length / blockSize * blockSize ≤ out0.length) (tr : List DEv)
    (h1 : ∀ b ∈ ends tr, b ∈ offsets (curOp lc1)) (h2 : ∀ b, .ended b false ∉ tr) :
    ∃ out, MemRun (handleBlk nd g blk) out0 tr out ∧ out.length = out0.length := by
  induction tr with
  | nil => exact ⟨out0, .nil, rfl⟩
  | cons e tr ih =>
    have hflux : ∀ tr (m : List Byte), Flux tr m m := fun _ _ => ⟨rfl, fun _ _ => rfl⟩
    have h2' : ∀ b, .ended b false ∉ tr := fun b hb => h2 b (List.mem_cons_of_mem _ hb)
    by_cases he : ∃ b ok, e = .ended b ok
    · obtain ⟨b, ok, rfl⟩ := he
      obtain ⟨m, hm, hl⟩ := ih (fun b' hb' => h1 b' (List.mem_cons_of_mem _ hb')) h2'
      have hb := h1 b List.mem_cons_self
      have hok : ok = true := by
        cases ok with
        | true => rfl
        | false => exact absurd List.mem_cons_self (h2 b)
      subst hok
      have hh := C39_handle_total hc hE inp blk nd hcs hcl hcd hsz hblk hnd b hb m (by omega) 0 0
        (List.replicate 16 none) rfl
      have hd : handleBlk nd g blk b m true _ := ⟨0, 0, _, rfl, hh⟩
      exact ⟨_, .ended hm hd (hflux _ _),
        ((handleBlk_spec hc hE inp out0 blk nd hcs hcl hcd hsz hblk hnd hout b hb m true _ hl hd).2.1).trans hl⟩
    · have hends : ends (e :: tr) = ends tr := by
        cases e with
        | ended b ok => exact absurd ⟨b, ok, rfl⟩ he
        | _ => rfl
      obtain ⟨m, hm, hl⟩ := ih (fun b' hb' => h1 b' (hends ▸ hb')) h2'
      exact ⟨m, .other hm (fun b ok hx => he ⟨b, ok, hx⟩) (hflux _ _), hl⟩

include hcc hfail

/-- C39: all blocks emitted by a compression stream for the buffer `inp` are pushed, in any order,
into a decompression stream with output buffer `out0`, whatever the interleaving of the threads of
both.  Both operations are reported as successful, and the output buffer is then equal to `inp` up
to its last whole block and unchanged beyond.  For builds with `NDEBUG`, or if no chunk is stored
raw; missing: other builds (see `C36_block_round_trip_debug`: there the program aborts). -/
theorem C39_round_trip_partial
    (hout : inp.length / blockSize * blockSize ≤ out0.length)
    {ds : DS N'} (hds : DReach ds) {ld2 ld1 : List DEv} {okd : Bool} (hdl : ds.log = ld2 ++ .finalized okd :: ld1)
    (hdd : .destroy ∉ ld1) (hdc : .finalize true ∉ dcurOp ld1)
    (hpush : (attempts (dcurOp ld1)).Perm (offsets (curOp lc1)))
    {out : List Byte} (hrun : MemRun (handleBlk nd g blk) out0 (dcurOp ld1) out) :
    okc = true ∧ okd = true ∧
    out = inp.take (inp.length / blockSize * blockSize) ++ out0.drop (inp.length / blockSize * blockSize) := by
  have hokc := C39_compression_succeeds hc hE inp blk hcs hcl hcd hsz hblk hfail
  have hoffs := (C32_blocks_exactly_once hE hcs (l1 := .finalized okc :: lc1) (l2 := lc2) hcl (by simpa using hcd)
    (by rw [hokc]; exact List.mem_cons_self) (by
      show Ev.finalize true ∉ Ev.finalized okc :: curOp lc1
      simpa using hcc)).1
  replace hoffs : (offsets (curOp lc1)).Perm ((List.range (inp.length / blockSize)).map (· * blockSize)) := by
    rw [← hsz]; exact hoffs
  have hnod := (trace_offsets (creach_trace (epochSetting_of hE) hcs (lc2 ++ [.finalized okc]) lc1
    (by rw [hcl]; simp) hcd)).1
  have hpa : ∀ tr : List DEv, (pushes tr).Sublist (attempts tr) := by
    intro tr
    induction tr with
    | nil => exact .slnil
    | cons e tr ih =>
      cases e with
      | push b => exact ih.cons_cons b
      | refused b => exact ih.cons b
      | _ => exact ih
  have htr := dreach_trace hds ld2 (.finalized okd :: ld1) hdl (by simpa using hdd)
  have heo := endsOk_curOp ld1 htr.2
  have hbp : ∀ l, DTraceOk l → ∀ b, (begins (dcurOp l)).count b ≤ (pushes (dcurOp l)).count b := by
    intro l
    induction l with
    | nil => intro _ b; exact Nat.le_refl _
    | cons e l ih =>
      rintro ⟨h1, h2⟩ b
      have ih := ih h2 b
      cases e with
      | start => exact Nat.le_refl _
      | begin b' =>
        have h1 := h1.2
        show (b' :: begins (dcurOp l)).count b ≤ (pushes (dcurOp l)).count b
        rw [List.count_cons]
        split
        · rename_i hx
          have : b' = b := by simpa using hx
          subst this
          omega
        · exact ih
      | push b' =>
        show (begins (dcurOp l)).count b ≤ (b' :: pushes (dcurOp l)).count b
        rw [List.count_cons]
        omega
      | _ => exact ih
  have hcnt : ∀ b, (begins (dcurOp ld1)).count b ≤ (offsets (curOp lc1)).count b := fun b =>
    Nat.le_trans (hbp ld1 htr.2 b) (Nat.le_trans ((hpa _).count_le b) (Nat.le_of_eq (hpush.count_eq b)))
  have hle1 : ∀ b, (begins (dcurOp ld1)).count b ≤ 1 := fun b =>
    Nat.le_trans (hcnt b) (List.nodup_iff_count_le_one.1 hnod b)
  have hmem : ∀ b ∈ begins (dcurOp ld1), b ∈ offsets (curOp lc1) := fun b hb =>
    List.count_pos_iff.1 (Nat.lt_of_lt_of_le (List.count_pos_iff.2 hb) (hcnt b))
  obtain ⟨m1, m2, m3, m4⟩ := memRun_inv
    (fun b hb => (offsets_facts hc hE inp blk hcs hcl hcd hsz hblk b hb).1)
    (handleBlk_spec hc hE inp out0 blk nd hcs hcl hcd hsz hblk hnd hout) hrun heo hle1 hmem
  have hokd : okd = true := by
    cases hx : okd with
    | true => rfl
    | false =>
      subst hx
      obtain ⟨b, hb⟩ := (C34_decomp_finalize_callback hds hdl hdd).2.2.2.1 rfl
      exact absurd (m4 b false hb) (by decide)
  subst hokd
  have hex := (C37_blocks_exactly_once hds hdl hdd hdc).1
  have hap : attempts (dcurOp ld1) = pushes (dcurOp ld1) := by
    have hno : ∀ l, DTraceOk l → (∀ b, .ended b false ∉ dcurOp l) → attempts (dcurOp l) = pushes (dcurOp l) := by
      intro l
      induction l with
      | nil => intro _ _; rfl
      | cons e l ih =>
        rintro ⟨h1, h2⟩ h3
        cases e with
        | start => rfl
        | refused b =>
          obtain ⟨b', hb'⟩ := h1
          exact absurd (List.mem_cons_of_mem _ hb') (h3 b')
        | push b => exact congrArg (b :: ·) (ih h2 fun b' hb' => h3 b' (List.mem_cons_of_mem _ hb'))
        | _ => exact ih h2 fun b' hb' => h3 b' (List.mem_cons_of_mem _ hb')
    exact hno ld1 htr.2 fun b hb => absurd (m4 b false hb) (by decide)
  rw [hap] at hpush
  have hends := hex.trans (hpush.trans hoffs)
  have hbends : ∀ b ∈ begins (dcurOp ld1), b ∈ ends (dcurOp ld1) := fun b hb =>
    (hex.trans hpush).mem_iff.2 (hmem b hb)
  refine ⟨hokc, rfl, List.ext_getElem? fun i => ?_⟩
  have htl : (inp.take (inp.length / blockSize * blockSize)).length = inp.length / blockSize * blockSize := by
    rw [List.length_take]
    exact Nat.min_eq_left (Nat.div_mul_le_self _ _)
  by_cases hi : i < inp.length / blockSize * blockSize
  · rw [List.getElem?_append_left (by omega), List.getElem?_take_of_lt hi]
    have hB : 0 < blockSize := by decide
    refine m2 (i / blockSize * blockSize) ?_ i ⟨Nat.div_mul_le_self _ _, ?_⟩
    · rw [hends.mem_iff, List.mem_map]
      exact ⟨i / blockSize, List.mem_range.2 ((Nat.div_lt_iff_lt_mul hB).2 hi), rfl⟩
    · exact Nat.lt_div_mul_add hB
  · rw [List.getElem?_append_right (by omega), htl, List.getElem?_drop, Nat.add_sub_cancel' (by omega)]
    refine m3 i fun b hb hr => hi ?_
    have := hends.mem_iff.1 (hbends b hb)
    obtain ⟨k, hk, rfl⟩ := List.mem_map.1 this
    have hk := List.mem_range.1 hk
    unfold inRegion at hr
    have : (k + 1) * blockSize ≤ inp.length / blockSize * blockSize := Nat.mul_le_mul_right _ hk
    rw [Nat.add_mul] at this
    omega

end

/-! ## Instance -/

/-- Two threads decompress the two blocks of `exLog`, pushed in the other order. -/
def exRActs : List (DAct 2) :=
  .start :: [0, 0, 0, 1, 1, 1].map .go ++ .push 1048576 (some 1) :: .go 1 :: .push 0 (some 0) ::
    [0, 1, 1, 0, 0].map .go ++ .fin false :: [0, 1, 0, 1, 0, 1, 0, 0, 0, 0, 0, 0].map .go

def exRLog : List DEv :=
  [.finalized true, .finalize false, .ended 0 true, .ended 1048576 true, .begin 0, .push 0, .begin 1048576,
    .push 1048576, .start]

theorem exRActs_log : ((DS.init 2).acts exRActs).map (·.log) = some exRLog := by decide +kernel

/-- The software implementations, a buffer of 2 MiB and 5 bytes, and threads that overlap: the
hypotheses of the theorem are met, for every content of the buffers. -/
example (inp out0 : List Byte) (hl : inp.length = 2097157) (hl0 : out0.length = 2097157) (e e' : Endian)
    (jo : Nat → OptJunk) (j : Nat → CompJunk) :
    ∃ (cs : CS 2) (ds : DS 2) (lc2 lc1 : List Ev) (ld2 ld1 : List DEv) (blk : Nat → Block) (out : List Byte),
      CReach (setEpoch (2 ^ 20)) cs ∧ cs.log = lc2 ++ .finalized true :: lc1 ∧
      (∀ o ∈ offsets (curOp lc1), compBlock (trivialChunked (swC e j)) 0 0 inp o (List.replicate 16 none) []
        (List.replicate (2 ^ 20) 0) = .ok (blk o)) ∧
      DReach ds ∧ ds.log = ld2 ++ .finalized true :: ld1 ∧
      MemRun (handleBlk true (swD e') blk) out0 (dcurOp ld1) out ∧
      out = inp.take 2097152 ++ out0.drop 2097152 := by
  obtain ⟨cs, hcs, hcl⟩ := exReach
  have hcl' : cs.log = [] ++ .finalized true :: exLog.tail := hcl
  have hds : ∃ s : DS 2, DReach s ∧ s.log = exRLog := by
    have h := exRActs_log
    cases ha : (DS.init 2).acts exRActs with
    | none => rw [ha] at h; cases h
    | some s =>
      rw [ha] at h
      exact ⟨s, dacts_reach .init ha, by simpa using h⟩
  obtain ⟨ds, hds, hdl⟩ := hds
  have hdl' : ds.log = [] ++ .finalized true :: exRLog.tail := hdl
  have hc := (C36_contracts e e' jo j).1
  have hoff : offsets (curOp exLog.tail) = [1048576, 0] := by decide
  have hb : ∀ o : Nat, ∃ b, o ∈ offsets (curOp exLog.tail) → compBlock (trivialChunked (swC e j)) 0 0 inp o
      (List.replicate 16 none) [] (List.replicate (2 ^ 20) 0) = .ok b := by
    intro o
    by_cases ho : o ∈ offsets (curOp exLog.tail)
    · obtain ⟨b, hb, _⟩ := compBlock_holds hc 0 0 inp o (List.replicate 16 none) [] (List.replicate (2 ^ 20) 0)
        (by
          rw [hoff] at ho
          rw [hl]
          rcases List.mem_cons.1 ho with rfl | ho
          · decide
          · rcases List.mem_cons.1 ho with rfl | ho
            · decide
            · cases ho) rfl List.length_replicate
      exact ⟨b, fun _ => hb⟩
    · exact ⟨⟨0, 0, none, [], none⟩, fun h => absurd h ho⟩
  obtain ⟨blk, hblk⟩ := Classical.axiomOfChoice hb
  have hblk' : ∀ o ∈ offsets (curOp exLog.tail), ∃ ptr abuf rets0 sizes0 buf0, rets0.length = 16 ∧
      buf0.length = 2 ^ 20 ∧
      compBlock (trivialChunked (swC e j)) ptr abuf inp o rets0 sizes0 buf0 = .ok (blk o) := fun o ho =>
    ⟨0, 0, _, _, _, rfl, List.length_replicate, hblk o ho⟩
  have hsz : opSize exLog.tail = inp.length := by rw [hl]; decide
  have hout : inp.length / blockSize * blockSize ≤ out0.length := by rw [hl, hl0]; decide
  have hcd : Ev.destroy ∉ exLog.tail := by decide
  obtain ⟨out, hrun, -⟩ := C39_run_exists hc exEpoch inp out0 blk true hcs hcl' hcd hsz hblk' (.inl rfl) hout
    (dcurOp exRLog.tail) (by rw [hoff]; decide) (by
      intro b
      show DEv.ended b false ∉ [.finalize false, .ended 0 true, .ended 1048576 true, .begin 0, .push 0,
        .begin 1048576, .push 1048576]
      simp)
  have := (C39_round_trip_partial hc exEpoch inp out0 blk true hcs hcl' hcd (by decide) hsz hblk'
    (by
      intro o ho
      exfalso
      replace ho : Ev.failBlock o ∈ [.finalize false, .returned 1048576, .block 1048576, .returned 0, .block 0] := ho
      simp at ho) (.inl rfl) hout hds hdl' (by decide) (by decide) (by rw [hoff]; exact List.Perm.swap _ _ _) hrun).2.2
  refine ⟨cs, ds, _, _, _, _, blk, out, hcs, hcl', hblk, hds, hdl', hrun, ?_⟩
  rw [this, hl, show 2097157 / blockSize * blockSize = 2097152 by decide]

end Lib842.Props
