import Verif.Proofs.StreamSample2
/-!
# Proofs about the sample program `compdecomp_streams`: all executions
-/

namespace Lib842
open Spec Props

variable {N N' : Nat} {c : SCfg} {f g : ChunkFn}

/-- Compare two ranks -/
local macro "rk" : tactic =>
  `(tactic| first | decide | (simp only [SPc.rank]; done) | (simp only [SPc.rank]; decide) | (intro hrk; revert hrk; simp [SPc.rank]))

section
variable {r : Nat} {cs : CS N} {blocks : List Block} {cerr cdone : Bool}

theorem CI.start (h : CI c 0 cs blocks cerr cdone) {cs' : CS N} (hu : CUser cs cs')
    (hl : cs'.log = .start c.inp.length :: cs.log) : CI c 1 cs' blocks cerr cdone := by
  have h0 := h.c0 rfl
  have hd : cdone = false := by
    cases hx : cdone with
    | false => rfl
    | true =>
      obtain ⟨lc2, lc1, e1, _⟩ := h.cd hx
      rw [h0] at e1
      simp at e1
  have hb := h.bl
  rw [h0] at hl hb
  refine ⟨.user h.cr hu, by rw [hl]; rfl, hf_user hu h.hf, by rw [hl]; simp, ?_, by omega, fun _ => h.ce (by omega),
    by rw [hl]; simp, by rw [hd]; simp, by omega⟩
  rw [hl]
  exact hb

theorem CI.call (h : CI c r cs blocks cerr cdone) {r' : Nat} {cs' : CS N} {e : Ev} (h1 : 1 ≤ r) (h2 : r ≤ r')
    (hu : CUser cs cs') (hl : cs'.log = e :: cs.log) (he : e = .finalize false ∨ e = .destroy)
    (hd : cCalls c.inp.length r' = e :: cCalls c.inp.length r) (h4 : 4 ≤ r' → 4 ≤ r) :
    CI c r' cs' blocks cerr cdone := by
  have hco : offsets (curOp cs'.log) = offsets (curOp cs.log) := by
    rw [hl]
    rcases he with rfl | rfl <;> rfl
  have hus : Ev.user e = true := by rcases he with rfl | rfl <;> rfl
  refine ⟨.user h.cr hu, ?_, hf_user hu h.hf, ?_, by rw [hco]; exact h.bl, by omega, fun hx => h.ce (by omega), ?_, ?_,
    fun hx => h.cp (h4 hx)⟩
  · rw [hl, List.filter_cons, if_pos hus, h.cu, hd]
  · intro o ho
    rw [hl] at ho
    rcases List.mem_cons.1 ho with hx | hx
    · subst hx; cases hus
    · exact h.nf o hx
  · intro ok ho
    rw [hl] at ho
    rcases List.mem_cons.1 ho with hx | hx
    · subst hx; cases hus
    · exact h.cd' ok hx
  · intro hx
    obtain ⟨lc2, lc1, e1, e2, e3, e4, e5⟩ := h.cd hx
    exact ⟨_ :: lc2, lc1, by rw [hl, e1]; rfl, e2, e3, e4, by rw [hco]; exact e5⟩

end

/-- The invariant of the program -/
structure SInv (c : SCfg) (g : ChunkFn) (s : SS N N') : Prop where
  ci : CI c s.pc.rank s.cs s.blocks s.cerr s.cdone
  di : DI c g s.pc s.ds s.blocks s.derr s.ddone s.mem
  p1 : s.pc ≠ .cJoin false ∧ s.pc ≠ .dJoin false ∧ ∀ r, s.pc = .done r → r = decide (c.inp.length % blockSize = 0)
  p2 : ∀ i, s.pc = .dPush i → i ≤ s.blocks.length
  p3 : 6 ≤ s.pc.rank → s.olen = some (s.blocks.map fun b => b.sizes.sum).sum

theorem SInv.init : SInv c g (SS.init c : SS N N') := by
  refine ⟨⟨.init, rfl, ?_, by simp [SS.init, CS.init], rfl, fun _ => rfl, fun _ => rfl, by simp [SS.init, CS.init],
    by simp [SS.init], by simp [SS.init, SPc.rank]⟩, ⟨.init, rfl, fun _ => rfl, .nil, List.length_replicate,
    by simp [SS.init, DS.init], by simp [SS.init, DS.init], by simp [SS.init], by simp [SS.init],
    fun _ => rfl, by simp [SS.init, SPc.rank]⟩, by simp [SS.init], by simp [SS.init], by simp [SS.init, SPc.rank]⟩
  rintro u (hu | hu) <;> cases hu

theorem SInv.cdone {s : SS N N'} (h : SInv c g s) (h4 : 4 ≤ s.pc.rank) : s.cdone = true := h.ci.cp h4

/-- All whole blocks are there after the compression. -/
theorem SInv.nblocks {s : SS N N'} (h : SInv c g s) (h4 : 4 ≤ s.pc.rank) :
    s.blocks.length = c.inp.length / blockSize := by
  have := (CFin.perm h.ci (h.cdone h4)).length_eq
  rw [h.ci.bl, List.length_map, List.length_reverse, this]
  simp

theorem onEv_rest (s : SS N N') (e : Ev) : (s.onEv c e).pc = s.pc ∧ (s.onEv c e).ds = s.ds ∧
    (s.onEv c e).derr = s.derr ∧ (s.onEv c e).ddone = s.ddone ∧ (s.onEv c e).mem = s.mem ∧ (s.onEv c e).olen = s.olen := by
  cases e <;> exact ⟨rfl, rfl, rfl, rfl, rfl, rfl⟩

theorem onDEv_rest (s : SS N N') (e : DEv) : (s.onDEv e).pc = s.pc ∧ (s.onDEv e).cs = s.cs ∧
    (s.onDEv e).blocks = s.blocks ∧ (s.onDEv e).cerr = s.cerr ∧ (s.onDEv e).cdone = s.cdone ∧ (s.onDEv e).olen = s.olen := by
  cases e <;> exact ⟨rfl, rfl, rfl, rfl, rfl, rfl⟩

theorem onEv_blocks {s : SS N N'} {e : Ev} (h : (∀ o, e ≠ .block o) ∧ ∀ o, e ≠ .failBlock o) :
    (s.onEv c e).blocks = s.blocks := by
  cases e with
  | block o => exact absurd rfl (h.1 o)
  | failBlock o => exact absurd rfl (h.2 o)
  | _ => rfl

variable (H : SHyp c f g)

include H in
theorem SInv.work {s s' : SS N N'} (h : SInv c g s) (hw : SWork c s s') : SInv c g s' := by
  cases hw with
  | comp hw hh hl =>
    exact ⟨h.ci.silent (.work h.ci.cr hw) (hf_work hw hh h.ci.hf) hl, h.di, h.p1, h.p2, h.p3⟩
  | @compEv t cs' e hw hh hl =>
    have hC := h.ci.event H (s := { s with cs := cs' }) hw hh hl rfl rfl rfl rfl
    obtain ⟨r1, r2, r3, r4, r5, r6⟩ := onEv_rest (c := c) { s with cs := cs' } e
    have hb : 4 ≤ s.pc.rank → (SS.onEv c { s with cs := cs' } e).blocks = s.blocks := by
      intro h4
      refine onEv_blocks (s := { s with cs := cs' }) ⟨fun o ho => ?_, fun o ho => ?_⟩
      · exact h.ci.no_more (h.cdone h4) (.work h.ci.cr hw) hl (.inl ho)
      · exact h.ci.no_more (h.cdone h4) (.work h.ci.cr hw) hl (.inr ho)
    refine ⟨by rw [r1]; exact hC, ?_, by rw [r1]; exact h.p1, ?_, ?_⟩
    · rw [r1, r2, r3, r4, r5]
      by_cases h4 : 4 ≤ s.pc.rank
      · rw [hb h4]; exact h.di
      · have h4 : s.pc.rank < 4 := by omega
        exact h.di.early (by omega) (by show s.pc.rank ≤ 6; omega)
    · intro i hi
      rw [r1] at hi
      have hi : s.pc = .dPush i := hi
      rw [hb (by rw [hi]; show 4 ≤ 7; decide)]
      exact h.p2 i hi
    · rw [r1, r6]
      intro h6
      have h6 : 6 ≤ s.pc.rank := h6
      rw [hb (by omega)]
      exact h.p3 h6
  | decomp hw hl hm =>
    exact ⟨h.ci, h.di.silent (.work h.di.dr hw) hl hm, h.p1, h.p2, h.p3⟩
  | decompEnd hw hl hh hm =>
    exact ⟨h.ci, DI.ended H h.ci h.di (.work h.di.dr hw) hl hh hm, h.p1, h.p2, h.p3⟩
  | @decompEv t ds' e m' hw hl he hm =>
    have hD := DI.event H h.ci h.di (s := { s with ds := ds', mem := m' }) hw hl he hm rfl rfl rfl rfl
    obtain ⟨r1, r2, r3, r4, r5, r6⟩ := onDEv_rest { s with ds := ds', mem := m' } e
    exact ⟨by rw [r1, r2, r3, r4, r5]; exact h.ci, by rw [r1, r3]; exact hD, by rw [r1]; exact h.p1,
      by rw [r1, r3]; exact h.p2, by rw [r1, r3, r6]; exact h.p3⟩

theorem SInv.spurious {s s' : SS N N'} (h : SInv c g s) (hw : SSpurious s s') : SInv c g s' := by
  cases hw with
  | comp hs =>
    refine ⟨h.ci.silent (.spurious h.ci.cr hs) (hf_spurious hs h.ci.hf) ?_, h.di, h.p1, h.p2, h.p3⟩
    cases hs <;> rfl
  | decomp hs =>
    refine ⟨h.ci, h.di.silent (.spurious h.di.dr hs) ?_ (flux_refl _ _), h.p1, h.p2, h.p3⟩
    cases hs <;> rfl

theorem sTarget_whole (h : c.inp.length % blockSize = 0) : sTarget c = c.inp := by
  have : c.inp.length / blockSize * blockSize = c.inp.length := Nat.div_mul_cancel (Nat.dvd_of_mod_eq_zero h)
  unfold sTarget
  rw [this, List.take_length, List.drop_of_length_le (by rw [List.length_replicate]), List.append_nil]

theorem SInv.main {s s' : SS N N'} (h : SInv c g s) (hw : SMain c s s') : SInv c g s' := by
  have hC := h.ci
  have hD := h.di
  have h1 := h.p1
  have h3 := h.p3
  cases hw with
  | cStart hp hu hl =>
    rw [hp] at hC hD
    exact ⟨hC.start hu hl, hD.early (by rk) (by rk), by simp, by simp, by simp [SPc.rank]⟩
  | cClear hp =>
    rw [hp] at hC hD
    refine ⟨{ hC with c0 := ?_, ce := fun _ => rfl, cp := ?_ }, hD.early (by rk) (by rk), by simp, by simp, by simp [SPc.rank]⟩
    · intro hx; cases hx
    · intro hx; exact absurd hx (by rk)
  | cFinalize hp hu hl =>
    rw [hp] at hC hD
    exact ⟨hC.call (by rk) (by rk) hu hl (.inl rfl) rfl (by rk), hD.early (by rk) (by rk), by simp,
      by simp, by simp [SPc.rank]⟩
  | cWait hp hd =>
    rw [hp] at hC hD
    refine ⟨{ hC with c0 := ?_, ce := fun _ => hC.ce (by rk), cp := fun _ => hd }, hD.early (by rk) (by rk),
      by simp, by simp, by simp [SPc.rank]⟩
    intro hx; cases hx
  | cTest hp hu hl =>
    rw [hp] at hC hD
    have he := hC.ce (by rk)
    rw [he] at hC
    show SInv c g { s with pc := .cJoin (!s.cerr), cs := _ }
    rw [he]
    exact ⟨hC.call (by rk) (by rk) hu hl (.inr rfl) rfl (by rk), hD.early (by rk) (by rk),
      by simp, by simp, by simp [SPc.rank]⟩
  | cJoinFail hp hj => exact absurd hp h1.1
  | cJoin hp hj =>
    rw [hp] at hC hD
    exact ⟨hC.mono (by rk) (by rk), hD.early (by rk) (by rk), by simp, by simp, fun _ => rfl⟩
  | dStart hp hu hl =>
    rw [hp] at hC hD h3
    exact ⟨hC.mono (by rk) (by rk), hD.start rfl hu hl, by simp, by simp, fun _ => h3 (by rk)⟩
  | @dPush ds' i b hp hb hu hl =>
    have h2 := h.p2 i hp
    have hlt : i < s.blocks.length := (List.getElem?_eq_some_iff.1 hb).1
    rw [hp] at hC hD h3
    refine ⟨hC.mono (by rk) (by rk), hD.call (e := .push b.offset) (by rk)
      (by rk) hu hl rfl (by simp) (fun _ => rfl) ?_ (fun hx => hx), by simp, ?_, fun _ => h3 (by rk)⟩
    · show pushEvs (s.blocks.take (i + 1)) = .push b.offset :: pushEvs (s.blocks.take i)
      unfold pushEvs
      rw [List.take_add_one, hb]
      simp
    · intro i' hi'
      cases hi'
      exact hlt
  | @dRefused ds' i b hp hb hu hl =>
    exfalso
    have hdr : DReach ds' := .user hD.dr hu
    have hev := hD.evOk (by rw [hp]; show 7 ≤ 10; decide) hdr hl (by simp)
    obtain ⟨b', hb'⟩ := hev
    exact hD.dn b' ((List.takeWhile_subset _) hb')
  | @dPushEnd i hp hb =>
    have h2 := h.p2 i hp
    have hge : s.blocks.length ≤ i := List.getElem?_eq_none_iff.1 hb
    rw [hp] at hC hD h3
    refine ⟨hC.mono (by rk) (by rk), { hD with du := ?_, d0 := ?_, d9 := ?_, de := fun _ => hD.de (by rk), dp := ?_ },
      by simp, by simp, fun _ => h3 (by rk)⟩
    · rw [hD.du]
      show pushEvs (s.blocks.take i) = pushEvs s.blocks
      rw [List.take_of_length_le hge]
    · intro hx; exact absurd hx (by rk)
    · intro hx
      have : 9 ≤ 7 := hD.d9 hx
      omega
    · intro hx; exact absurd hx (by rk)
  | dFinalize hp hu hl =>
    rw [hp] at hC hD h3
    exact ⟨hC.mono (by rk) (by rk), hD.call (by rk) (by rk) hu hl rfl (by simp) (by simp) rfl (by rk),
      by simp, by simp, fun _ => h3 (by rk)⟩
  | dWait hp hd =>
    rw [hp] at hC hD h3
    refine ⟨hC.mono (by rk) (by rk), { hD with d0 := ?_, d9 := fun _ => by rk, de := fun _ => hD.de (by rk), dp := fun _ => hd },
      by simp, by simp, fun _ => h3 (by rk)⟩
    intro hx; exact absurd hx (by rk)
  | dTest hp hu hl =>
    rw [hp] at hC hD h3
    have he := hD.de (by rk)
    rw [he] at hD
    rw [he]
    exact ⟨hC.mono (by rk) (by rk), hD.call (by rk) (by rk) hu hl rfl (by simp) (by simp) rfl (by rk),
      by simp, by simp, fun _ => h3 (by rk)⟩
  | dJoinFail hp hj => exact absurd hp h1.2.1
  | dJoin hp hj =>
    rw [hp] at hC hD h3
    refine ⟨hC.mono (by rk) (by rk), { hD with d0 := ?_, d9 := fun _ => by rk, de := ?_, dp := fun _ => hD.dp (by rk) },
      by simp, by simp, fun _ => h3 (by rk)⟩
    · intro hx; exact absurd hx (by rk)
    · intro hx; exact absurd hx (by rk)
  | verify hp =>
    have hnb := h.nblocks (by rw [hp]; decide)
    rw [hp] at hC hD h3
    refine ⟨hC.mono (by rk) (by rk), { hD with d0 := ?_, d9 := fun _ => by rk, de := ?_, dp := fun _ => hD.dp (by rk) },
      ⟨by simp, by simp, ?_⟩, by simp, fun _ => h3 (by rk)⟩
    · intro hx; exact absurd hx (by rk)
    · intro hx; exact absurd hx (by rk)
    · intro r hr
      injection hr with hr
      rw [← hr, hnb, (hD.dd (hD.dp (by rk))).1]
      congr 1
      apply propext
      constructor
      · rintro ⟨hx, _⟩
        rw [hx, Nat.mul_mod_left]
      · intro hx
        refine ⟨(Nat.div_mul_cancel (Nat.dvd_of_mod_eq_zero hx)).symm, ?_⟩
        rw [sTarget_whole hx, List.take_length]

include H in
theorem sreach_inv {s : SS N N'} (h : SReach c s) : SInv c g s := by
  induction h with
  | init => exact .init
  | work _ hs ih => exact ih.work H hs
  | main _ hs ih => exact ih.main hs
  | spurious _ hs ih => exact ih.spurious hs

/-! ## Progress -/

section
variable {s : SS N N'}

/-- A thread of the compression stream that can do a step can do one in the program. -/
theorem swork_of_cwork {t : Fin N} {cs' : CS N} (hw : CWork (setEpoch 0) t s.cs cs') : ∃ s', SWork c s s' := by
  have : ∃ cs', CWork (setEpoch 0) t s.cs cs' ∧ CHandle c t s.cs cs' := by
    by_cases hp : (s.cs.thr t).pc = .handle
    · by_cases ho : (c.blk (s.cs.thr t).off).offset = SIZE_MAX
      · refine ⟨_, .handleFail hp, fun _ hx => ?_, fun _ _ => ho⟩
        have hx : ((Function.update s.cs.thr t _) t).pc = _ := hx
        rw [Function.update_self] at hx
        cases hx
      · refine ⟨_, .handleOk hp, fun _ _ => ho, fun _ hx => ?_⟩
        have hx : ((Function.update s.cs.thr t _) t).pc = _ := hx
        rw [Function.update_self] at hx
        cases hx
    · exact ⟨cs', hw, fun hx => absurd hx hp, fun hx => absurd hx hp⟩
  obtain ⟨cs', hw, hh⟩ := this
  obtain ⟨_, hl | ⟨e, hl, _⟩⟩ := work_log hw
  · exact ⟨_, .comp hw hh hl⟩
  · exact ⟨_, .compEv hw hh hl⟩

theorem pushes_sub (tr : List DEv) : (pushes tr).Sublist (attempts tr) := by
  induction tr with
  | nil => exact .slnil
  | cons e tr ih =>
    cases e with
    | push b => exact ih.cons_cons b
    | refused b => exact ih.cons b
    | _ => exact ih

theorem dCalls_pushes {blocks : List Block} {pc : SPc} {b : Nat} (h : b ∈ pushes (dcurOp (dCalls blocks pc))) :
    ∃ bk ∈ blocks, bk.offset = b := by
  have key : ∀ bs : List Block, b ∈ attempts (dcurOp (pushEvs bs)) → ∃ bk ∈ bs, bk.offset = b := by
    intro bs hx
    rw [attempts_pushEvs, List.mem_reverse, List.mem_map] at hx
    exact hx
  have h := (pushes_sub _).subset h
  cases pc with
  | dPush i =>
    obtain ⟨bk, h1, h2⟩ := key _ h
    exact ⟨bk, List.mem_of_mem_take h1, h2⟩
  | dFinalize => exact key _ h
  | dWait => exact key _ h
  | dTest => exact key _ h
  | dJoin _ => exact key _ h
  | verify => exact key _ h
  | done _ => exact key _ h
  | _ => cases h

include H in
/-- The same for the decompression stream -/
theorem swork_of_dwork (h : SInv c g s) {t : Fin N'} {ds' : DS N'} (hw : DWork t s.ds ds') : ∃ s', SWork c s s' := by
  obtain ⟨_, hl | ⟨e, hl, _⟩⟩ := dwork_log hw
  · exact ⟨_, .decomp hw hl (flux_refl _ _)⟩
  · by_cases he : ∃ b ok, e = .ended b ok
    · obtain ⟨b, ok, rfl⟩ := he
      -- the thread is in `handle_block`
      have hp : (s.ds.thr t).pc = .handle b := by
        have key : s.ds.log = .ended b ok :: s.ds.log → False := fun hx => by
          have := congrArg List.length hx
          simp at this
        cases hw with
        | @popTake b' q _ _ _ =>
          have : DEv.begin b' :: s.ds.log = .ended b ok :: s.ds.log := hl
          cases this
        | @handleOk b' hp =>
          have : DEv.ended b' true :: s.ds.log = .ended b ok :: s.ds.log := hl
          cases this
          exact hp
        | @handleFail b' hp =>
          have : DEv.ended b' false :: s.ds.log = .ended b ok :: s.ds.log := hl
          cases this
          exact hp
        | @callback ok' hp =>
          have : DEv.finalized ok' :: s.ds.log = .ended b ok :: s.ds.log := hl
          cases this
        | _ => exact (key hl).elim
      have hwk : DWork t s.ds _ := .handleOk hp
      have hdr := DReach.work h.di.dr hwk
      have hl' : DEv.ended b true :: s.ds.log = .ended b true :: s.ds.log := rfl
      have h7 := h.di.rank7 (b := b) (ok := true) hdr hl' (.inr (.inl rfl))
      -- its block has been pushed
      have hb : ∃ bk ∈ s.blocks, bk.offset = b := by
        have h1 := C37_at_most_once hdr b
        have h2 : (ends (dcurOp (DEv.ended b true :: s.ds.log))).count b = (ends (dcurOp s.ds.log)).count b + 1 :=
          List.count_cons_self
        have h3 : 0 < (pushes (dcurOp s.ds.log)).count b := by
          have h1' : (ends (dcurOp (DEv.ended b true :: s.ds.log))).count b ≤
            (begins (dcurOp (DEv.ended b true :: s.ds.log))).count b ∧
            (begins (dcurOp (DEv.ended b true :: s.ds.log))).count b ≤
            (pushes (dcurOp (DEv.ended b true :: s.ds.log))).count b := h1
          have h4 : pushes (dcurOp (DEv.ended b true :: s.ds.log)) = pushes (dcurOp s.ds.log) := rfl
          rw [h4] at h1'
          omega
        have h4 := List.count_pos_iff.1 h3
        rw [pushes_user, dcurOp_user, h.di.du] at h4
        exact dCalls_pushes h4
      obtain ⟨bk, hbk, hoff⟩ := hb
      obtain ⟨lc2, lc1, e1, e2, e3, e4, e5, e6, e7, e8⟩ := h.ci.c39 H (h.cdone (by omega))
      have hmem := hbk
      rw [e5, List.mem_map] at hmem
      obtain ⟨o, ho, rfl⟩ := hmem
      rw [List.mem_reverse] at ho
      have hh := C39_handle_total H.hc (.inl rfl) c.inp c.blk c.nd h.ci.cr e1 e2 e4 e7 e8 o ho s.mem
        (by rw [h.di.ml]; exact Nat.div_mul_le_self _ _) 0 0 (List.replicate 16 none) rfl
      have hsh : sHandle c s.blocks b s.mem true _ := ⟨c.blk o, hbk, hoff, 0, 0, List.replicate 16 none, rfl, by
        rw [H.hdc]; exact hh⟩
      exact ⟨_, .decompEnd hwk hl' hsh (flux_refl _ _)⟩
    · exact ⟨_, .decompEv hw hl (fun b ok hx => he ⟨b, ok, hx⟩) (flux_refl _ _)⟩

include H in
/-- As long as the program has not ended there is something to do. -/
theorem SInv.progress (hN : 0 < N) (hN' : 0 < N') (h : SInv c g s) (hnd : ∀ r, s.pc ≠ .done r) : ∃ s', SStep c s s' := by
  have hC := h.ci
  have hD := h.di
  have mainStep : ∀ s', SMain c s s' → ∃ s', SStep c s s' := fun s' hs => ⟨s', .inr hs⟩
  have workStep : (∃ s', SWork c s s') → ∃ s', SStep c s s' := fun ⟨s', hs⟩ => ⟨s', .inl hs⟩
  have hcq : s.pc.rank ≤ 4 → s.cs.quit = false := fun hr => by
    cases hx : s.cs.quit with
    | false => rfl
    | true => exact absurd ((creach_quit hC.cr).1 hx) (hC.destroy hr)
  have hdq : s.pc.rank ≤ 10 → s.ds.quit = false := fun hr => by
    cases hx : s.ds.quit with
    | false => rfl
    | true => exact absurd ((dreach_quit hD.dr).1 hx) (hD.destroy hr)
  have cidle : (∃ s', SWork c s s') ∨ ∀ t cs', ¬ CWork (setEpoch 0) t s.cs cs' := by
    by_cases hx : ∃ t cs', CWork (setEpoch 0) t s.cs cs'
    · obtain ⟨t, cs', hx⟩ := hx
      exact .inl (swork_of_cwork hx)
    · exact .inr fun t cs' hy => hx ⟨t, cs', hy⟩
  have didle : (∃ s', SWork c s s') ∨ ∀ t ds', ¬ DWork t s.ds ds' := by
    by_cases hx : ∃ t ds', DWork t s.ds ds'
    · obtain ⟨t, ds', hx⟩ := hx
      exact .inl (swork_of_dwork H h hx)
    · exact .inr fun t ds' hy => hx ⟨t, ds', hy⟩
  cases hp : s.pc with
  | cStart =>
    rw [hp] at hC
    have h0 := hC.c0 rfl
    refine mainStep _ (.cStart hp (.start (size := c.inp.length) (hcq (by rw [hp]; decide)) (.inl ?_) H.hlen) rfl)
    rw [h0]; rfl
  | cClear => exact mainStep _ (.cClear hp)
  | cFinalize =>
    rw [hp] at hC
    refine mainStep _ (.cFinalize hp (.finalize (cancel := false) (hcq (by rw [hp]; decide)) ⟨?_, ?_⟩) rfl)
    · rw [started_user, hC.cu]; rfl
    · intro cc hcc
      rw [mem_user rfl, curOp_user, hC.cu] at hcc
      exact absurd (cCalls_curOp hcc) (by decide)
  | cWait =>
    rw [hp] at hC
    cases hd : s.cdone with
    | true => exact mainStep _ (.cWait hp hd)
    | false =>
      rcases cidle with hx | hx
      · exact workStep hx
      · exfalso
        rcases C35_no_deadlock (.inl rfl) hN hC.cr hx with ⟨h1, _⟩ | ⟨_, h1 | h1⟩
        · exact hC.destroy (by decide) h1
        · rcases h1 with h1 | ⟨ok, h1⟩
          · rw [started_user, hC.cu] at h1; cases h1
          · have := hC.cd' ok ((List.takeWhile_subset _) h1)
            rw [hd] at this; cases this
        · refine h1.2 false ?_
          rw [mem_user rfl, curOp_user, hC.cu]
          exact List.mem_cons_self
  | cTest => exact mainStep _ (.cTest hp (.destroy (hcq (by rw [hp]; decide))) rfl)
  | cJoin ok =>
    cases ok with
    | false => exact absurd hp h.p1.1
    | true =>
      rcases cidle with hx | hx
      · exact workStep hx
      · rw [hp] at hC
        rcases C35_no_deadlock (.inl rfl) hN hC.cr hx with ⟨_, h1⟩ | ⟨h1, _⟩
        · exact mainStep _ (.cJoin hp h1)
        · refine absurd ?_ h1
          rw [mem_user rfl, hC.cu]
          exact List.mem_cons_self
  | dStart =>
    rw [hp] at hD
    refine mainStep _ (.dStart hp (.start (hdq (by rw [hp]; decide)) (.inl ?_)) rfl)
    rw [hD.d0 (by decide)]; rfl
  | dPush i =>
    rw [hp] at hD
    have hq := hdq (by rw [hp]; show 7 ≤ 10; decide)
    have hm : dmayPush s.ds.log := by
      refine ⟨?_, ?_⟩
      · rw [dstarted_user, hD.du]; exact dstarted_pushEvs _
      · intro cc hcc
        have hcc := (List.takeWhile_subset _) hcc
        rw [dmem_user rfl, hD.du] at hcc
        exact absurd (dCalls_finalize_mem hcc) (by show ¬ 9 ≤ 7; decide)
    cases hb : s.blocks[i]? with
    | none => exact mainStep _ (.dPushEnd hp hb)
    | some b =>
      cases he : s.ds.error with
      | true => exact mainStep _ (.dRefused hp hb (.pushErr (b := b.offset) hq hm he) rfl)
      | false =>
        by_cases hx : ∃ t, (s.ds.thr t).pc = .popSleep
        · obtain ⟨t, hx⟩ := hx
          exact mainStep _ (.dPush hp hb (.pushWake (b := b.offset) hq hm he hx) rfl)
        · exact mainStep _ (.dPush hp hb (.pushNone (b := b.offset) hq hm he fun t ht => hx ⟨t, ht⟩) rfl)
  | dFinalize =>
    rw [hp] at hD
    refine mainStep _ (.dFinalize hp (.finalize (cancel := false) (hdq (by rw [hp]; decide)) ⟨?_, ?_⟩) rfl)
    · rw [dstarted_user, hD.du]; exact dstarted_pushEvs _
    · intro cc hcc
      have hcc := (List.takeWhile_subset _) hcc
      rw [dmem_user rfl, hD.du] at hcc
      exact absurd (dCalls_finalize_mem hcc) (by decide)
  | dWait =>
    rw [hp] at hD
    cases hd : s.ddone with
    | true => exact mainStep _ (.dWait hp hd)
    | false =>
      rcases didle with hx | hx
      · exact workStep hx
      · exfalso
        rcases C35_decomp_no_deadlock hN' hD.dr hx with ⟨h1, _⟩ | ⟨_, h1 | h1⟩
        · exact hD.destroy (by decide) h1
        · rcases h1 with h1 | ⟨ok, h1⟩
          · rw [dstarted_user, hD.du] at h1
            have : dstarted (DEv.finalize false :: pushEvs s.blocks) = true := dstarted_pushEvs _
            rw [show dCalls s.blocks .dWait = DEv.finalize false :: pushEvs s.blocks from rfl, this] at h1
            cases h1
          · have := hD.dd' ok ((List.takeWhile_subset _) h1)
            rw [hd] at this; cases this
        · refine h1.1.2 false ?_
          rw [dmem_user rfl, dcurOp_user, hD.du]
          exact List.mem_cons_self
  | dTest => exact mainStep _ (.dTest hp (.destroy (hdq (by rw [hp]; decide))) rfl)
  | dJoin ok =>
    cases ok with
    | false => exact absurd hp h.p1.2.1
    | true =>
      rcases didle with hx | hx
      · exact workStep hx
      · rw [hp] at hD
        rcases C35_decomp_no_deadlock hN' hD.dr hx with ⟨_, h1⟩ | ⟨h1, _⟩
        · exact mainStep _ (.dJoin hp h1)
        · refine absurd ?_ h1
          rw [dmem_user rfl, hD.du]
          exact List.mem_cons_self
  | verify => exact mainStep _ (.verify hp)
  | done r => exact absurd hp (hnd r)

end

/-- Steps that the main thread still has to do, at most -/
def SPc.todo (K : Nat) : SPc → Nat
  | .cStart => K + 14
  | .cClear => K + 13
  | .cFinalize => K + 12
  | .cWait => K + 11
  | .cTest => K + 10
  | .cJoin _ => K + 9
  | .dStart => K + 8
  | .dPush i => K + 7 - i
  | .dFinalize => 6
  | .dWait => 5
  | .dTest => 4
  | .dJoin _ => 3
  | .verify => 2
  | .done _ => 0

theorem smain_todo {s s' : SS N N'} (h : SInv c g s) (hs : SMain c s s') :
    s'.pc.todo (c.inp.length / blockSize) < s.pc.todo (c.inp.length / blockSize) := by
  have hnb := h.nblocks
  generalize c.inp.length / blockSize = K at *
  cases hs with
  | @dPush _ i b hp hb _ _ =>
    have hlt : i < s.blocks.length := (List.getElem?_eq_some_iff.1 hb).1
    have := hnb (by rw [hp]; show 4 ≤ 7; decide)
    rw [hp]
    show K + 7 - (i + 1) < K + 7 - i
    omega
  | @dRefused _ i b hp hb _ _ =>
    have hlt : i < s.blocks.length := (List.getElem?_eq_some_iff.1 hb).1
    have := hnb (by rw [hp]; show 4 ≤ 7; decide)
    rw [hp]
    show 6 < K + 7 - i
    omega
  | @dPushEnd i hp hb =>
    have h2 := h.p2 i hp
    have := hnb (by rw [hp]; show 4 ≤ 7; decide)
    rw [hp]
    show 6 < K + 7 - i
    omega
  | _ => simp only [*, SPc.todo]; omega

theorem swork_pc {s s' : SS N N'} (hs : SWork c s s') : s'.pc = s.pc ∧
    (((∃ t, CWork (setEpoch 0) t s.cs s'.cs) ∧ s'.ds = s.ds) ∨ (∃ t, DWork t s.ds s'.ds) ∧ s'.cs = s.cs) := by
  cases hs with
  | comp hw hh hl => exact ⟨rfl, .inl ⟨⟨_, hw⟩, rfl⟩⟩
  | @compEv t cs' e hw hh hl =>
    obtain ⟨r1, r2, r3, r4, r5, r6⟩ := onEv_rest (c := c) { s with cs := cs' } e
    refine ⟨r1, .inl ⟨⟨t, ?_⟩, r2⟩⟩
    have : (SS.onEv c { s with cs := cs' } e).cs = cs' := by cases e <;> rfl
    rw [this]; exact hw
  | decomp hw hl hm => exact ⟨rfl, .inr ⟨⟨_, hw⟩, rfl⟩⟩
  | decompEnd hw hl hh hm => exact ⟨rfl, .inr ⟨⟨_, hw⟩, rfl⟩⟩
  | @decompEv t ds' e m' hw hl he hm =>
    obtain ⟨r1, r2, r3, r4, r5, r6⟩ := onDEv_rest { s with ds := ds', mem := m' } e
    refine ⟨r1, .inr ⟨⟨t, ?_⟩, r2⟩⟩
    have : (SS.onDEv { s with ds := ds', mem := m' } e).ds = ds' := by cases e <;> rfl
    rw [this]; exact hw

include H in
/-- The program ends, whatever the schedule. -/
theorem SInv.ends (hN : 0 < N) (hN' : 0 < N') : ∀ (n : Nat) (s : SS N N'), SInv c g s →
    s.pc.todo (c.inp.length / blockSize) = n → Inevitable (SStep c) (fun s => ∃ r, s.pc = .done r) s := by
  intro n
  induction n using Nat.strongRecOn with
  | _ n ihn =>
    have main : ∀ cs : CS N, Acc (fun s' s => ∃ t, CWork (setEpoch 0) t s s') cs → ∀ ds : DS N',
        Acc (fun s' s => ∃ t, DWork t s s') ds → ∀ s : SS N N', s.cs = cs → s.ds = ds → SInv c g s →
        s.pc.todo (c.inp.length / blockSize) = n → Inevitable (SStep c) (fun s => ∃ r, s.pc = .done r) s := by
      intro cs hcs
      induction hcs with
      | intro cs _ ihc =>
        intro ds hds
        induction hds with
        | intro ds hds ihd =>
          intro s h1 h2 h hn
          subst h1 h2
          by_cases hdone : ∃ r, s.pc = .done r
          · exact .now hdone
          · refine .later (h.progress H hN hN' fun r hr => hdone ⟨r, hr⟩) ?_
            rintro s' (hs | hs)
            · obtain ⟨hpc, ⟨⟨t, hw⟩, he⟩ | ⟨⟨t, hw⟩, he⟩⟩ := swork_pc hs
              · exact ihc s'.cs ⟨t, hw⟩ s.ds (.intro _ hds) s' rfl he (h.work H hs) (by rw [hpc]; exact hn)
              · exact ihd s'.ds ⟨t, hw⟩ s' he rfl (h.work H hs) (by rw [hpc]; exact hn)
            · have := smain_todo h hs
              exact ihn _ (by omega) s' (h.main hs) rfl
    intro s h hn
    exact main s.cs (C35_terminates (.inl rfl) h.ci.cr) s.ds (C35_decomp_terminates h.di.dr) s rfl rfl h hn

/-! ## Joining -/

theorem cwork_done {cs cs' : CS N} {t : Fin N} (h : CWork (setEpoch 0) t cs cs') (hd : ∀ t, (cs.thr t).pc = .done) :
    ∀ t, (cs'.thr t).pc = .done := by
  have ht := hd t
  cases h with
  | recheck hw => exact hd
  | _ => simp_all

theorem dwork_done {ds ds' : DS N'} {t : Fin N'} (h : DWork t ds ds') (hd : ∀ t, (ds.thr t).pc = .done) :
    ∀ t, (ds'.thr t).pc = .done := by
  have ht := hd t
  cases h with
  | recheck hw => exact hd
  | _ => simp_all

include H in
/-- After a stream has been destroyed none of its threads is left. -/
theorem joined {s : SS N N'} (h : SReach c s) : (6 ≤ s.pc.rank → ∀ t, (s.cs.thr t).pc = .done) ∧
    (12 ≤ s.pc.rank → ∀ t, (s.ds.thr t).pc = .done) := by
  induction h with
  | init => exact ⟨by simp [SS.init, SPc.rank], by simp [SS.init, SPc.rank]⟩
  | @work s s' hr hs ih =>
    obtain ⟨hpc, ⟨⟨t, hw⟩, he⟩ | ⟨⟨t, hw⟩, he⟩⟩ := swork_pc hs
    · rw [hpc, he]
      exact ⟨fun h6 => cwork_done hw (ih.1 h6), ih.2⟩
    · rw [hpc, he]
      exact ⟨ih.1, fun h6 => dwork_done hw (ih.2 h6)⟩
  | @spurious s s' hr hs ih =>
    cases hs with
    | comp hs =>
      refine ⟨fun h6 => ?_, ih.2⟩
      have hd := ih.1 h6
      cases hs with
      | @cv t h => rw [hd t] at h; rcases h with h | h <;> cases h
      | bar h => exact hd
    | decomp hs =>
      refine ⟨ih.1, fun h6 => ?_⟩
      have hd := ih.2 h6
      cases hs with
      | bar h => exact hd
      | _ h => simp_all
  | @main s s' hr hs ih =>
    have hi := sreach_inv H hr
    have h1 := hi.p1
    cases hs with
    | cJoinFail hp hj => exact absurd hp h1.1
    | dJoinFail hp hj => exact absurd hp h1.2.1
    | cJoin hp hj => exact ⟨fun _ => hj, fun h6 => absurd h6 (by show ¬ 12 ≤ 6; decide)⟩
    | dJoin hp hj => exact ⟨fun _ => ih.1 (by rw [hp]; show 6 ≤ 11; decide), fun _ => hj⟩
    | verify hp => exact ⟨fun _ => ih.1 (by rw [hp]; decide), fun _ => ih.2 (by rw [hp]; decide)⟩
    | dStart hp _ _ | dFinalize hp _ _ | dWait hp _ | dTest hp _ _ | dPush hp _ _ _ | dRefused hp _ _ _ | dPushEnd hp _ =>
      exact ⟨fun _ => ih.1 (by rw [hp]; simp [SPc.rank]), fun h6 => absurd h6 (by simp [SPc.rank])⟩
    | _ => exact ⟨fun h6 => absurd h6 (by simp [SPc.rank]), fun h6 => absurd h6 (by simp [SPc.rank])⟩

end Lib842
