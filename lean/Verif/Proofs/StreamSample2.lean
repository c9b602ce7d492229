import Verif.Proofs.StreamSample
/-!
# Proofs about the sample program `compdecomp_streams`: the decompression stream
-/

namespace Lib842
open Spec Props

theorem flux_refl {α : Type} (tr : List DEv) (m : List α) : Flux tr m m := ⟨rfl, fun _ _ => rfl⟩

theorem flux_trans {α : Type} {tr : List DEv} {m m' m'' : List α} (h : Flux tr m m') (h' : Flux tr m' m'') : Flux tr m m'' :=
  ⟨h'.1.trans h.1, fun i hi => (h'.2 i hi).trans (h.2 i hi)⟩

theorem flux_none {α : Type} {tr : List DEv} {m m' : List α} (h : Flux tr m m') (hr : ∀ b, ¬ running tr b) : m' = m :=
  List.ext_getElem? fun i => h.2 i fun b hb => absurd hb (hr b)

theorem memRun_flux {α : Type} {handle : Nat → List α → Bool → List α → Prop} {out0 : List α} {tr : List DEv}
    {m m' : List α} (h : MemRun handle out0 tr m) (hf : Flux tr m m') : MemRun handle out0 tr m' := by
  cases h with
  | nil =>
    rw [flux_none hf fun b hb => by simp [running, ends, begins] at hb]
    exact .nil
  | other h1 h2 h3 => exact .other h1 h2 (flux_trans h3 hf)
  | ended h1 h2 h3 => exact .ended h1 h2 (flux_trans h3 hf)

theorem dCalls_early {blocks : List Block} {pc : SPc} (h : pc.rank ≤ 6) : dCalls blocks pc = [] := by
  cases pc <;> first | rfl | (simp only [SPc.rank] at h; omega)

theorem pushEvs_mem {blocks : List Block} {e : DEv} (h : e ∈ pushEvs blocks) :
    e = .start ∨ ∃ b ∈ blocks, e = .push b.offset := by
  unfold pushEvs at h
  rw [List.mem_append, List.mem_reverse, List.mem_map] at h
  rcases h with ⟨b, hb, rfl⟩ | h
  · exact .inr ⟨b, hb, rfl⟩
  · rw [List.mem_singleton] at h
    exact .inl h

theorem dCalls_destroy {blocks : List Block} {pc : SPc} (h : pc.rank ≤ 10) : DEv.destroy ∉ dCalls blocks pc := by
  have key : ∀ bs, DEv.destroy ∉ pushEvs bs := fun bs hx => by
    rcases pushEvs_mem hx with hx | ⟨b, _, hx⟩ <;> cases hx
  cases pc <;> simp only [SPc.rank] at h <;> first | omega | simp [dCalls, key]

theorem dCalls_finalize {blocks : List Block} {pc : SPc} : DEv.finalize true ∉ dCalls blocks pc := by
  have key : ∀ bs, DEv.finalize true ∉ pushEvs bs := fun bs hx => by
    rcases pushEvs_mem hx with hx | ⟨b, _, hx⟩ <;> cases hx
  cases pc <;> simp [dCalls, key]

theorem dCalls_finalize_mem {blocks : List Block} {pc : SPc} {cc : Bool} (h : DEv.finalize cc ∈ dCalls blocks pc) :
    9 ≤ pc.rank := by
  have key : ∀ bs, DEv.finalize cc ∉ pushEvs bs := fun bs hx => by
    rcases pushEvs_mem hx with hx | ⟨b, _, hx⟩ <;> cases hx
  cases pc <;> simp [dCalls, key] at h <;> simp [SPc.rank]

theorem dcurOp_pushEvs (blocks : List Block) : dcurOp (pushEvs blocks) = (blocks.map fun b => .push b.offset).reverse := by
  unfold pushEvs
  have : ∀ l : List DEv, (∀ e ∈ l, e.isStart = false) → dcurOp (l ++ [.start]) = l := by
    intro l
    induction l with
    | nil => intro _; rfl
    | cons e l ih =>
      intro h
      rw [List.cons_append, dcurOp_cons (h e List.mem_cons_self), ih fun e' he' => h e' (List.mem_cons_of_mem _ he')]
  apply this
  intro e he
  rw [List.mem_reverse, List.mem_map] at he
  obtain ⟨b, _, rfl⟩ := he
  rfl

theorem attempts_pushEvs (blocks : List Block) :
    attempts (dcurOp (pushEvs blocks)) = (blocks.map fun b => b.offset).reverse := by
  rw [dcurOp_pushEvs, ← List.map_reverse, ← List.map_reverse]
  induction blocks.reverse with
  | nil => rfl
  | cons b l ih => exact congrArg (_ :: ·) ih

theorem dstarted_pushEvs (blocks : List Block) : dstarted (pushEvs blocks) = true := by
  unfold dstarted pushEvs
  rw [List.any_append]
  simp [DEv.isStart]

variable {N N' : Nat}

theorem dwork_ev {t : Fin N} {s s' : DS N} {e : DEv} (h : DWork t s s') (hl : s'.log = e :: s.log) :
    (∃ b, e = .begin b) ∨ (∃ b ok, e = .ended b ok) ∨ ∃ ok, e = .finalized ok := by
  have key : s.log = e :: s.log → False := fun hx => by
    have := congrArg List.length hx
    simp at this
  cases h
  case popTake b q hp hq hb =>
    have : DEv.begin b :: s.log = e :: s.log := hl
    cases this
    exact .inl ⟨_, rfl⟩
  case handleOk b hp =>
    have : DEv.ended b true :: s.log = e :: s.log := hl
    cases this
    exact .inr (.inl ⟨_, _, rfl⟩)
  case handleFail b hp =>
    have : DEv.ended b false :: s.log = e :: s.log := hl
    cases this
    exact .inr (.inl ⟨_, _, rfl⟩)
  case callback ok hp =>
    have : DEv.finalized ok :: s.log = e :: s.log := hl
    cases this
    exact .inr (.inr ⟨_, rfl⟩)
  all_goals exact (key hl).elim

/-- The buffer at the end: the whole blocks of the input, then zeros -/
def sTarget (c : SCfg) : List Byte :=
  c.inp.take (c.inp.length / blockSize * blockSize) ++
    (List.replicate c.inp.length (0 : Byte)).drop (c.inp.length / blockSize * blockSize)

/-- Invariant of the decompression stream and its callback -/
structure DI (c : SCfg) (g : ChunkFn) (pc : SPc) (ds : DS N') (blocks : List Block) (derr ddone : Bool) (mem : List Byte) :
    Prop where
  dr : DReach ds
  du : ds.log.filter DEv.user = dCalls blocks pc
  d0 : pc.rank ≤ 6 → ds.log = []
  dm : MemRun (handleBlk c.nd g c.blk) (List.replicate c.inp.length 0) (dcurOp ds.log) mem
  ml : mem.length = c.inp.length
  dn : ∀ b, .ended b false ∉ ds.log
  dd' : ∀ ok, .finalized ok ∈ ds.log → ddone = true
  dd : ddone = true → mem = sTarget c ∧ ∀ b, (ends (dcurOp ds.log)).count b = (pushes (dcurOp ds.log)).count b
  d9 : ddone = true → 9 ≤ pc.rank
  de : pc.rank ≤ 10 → derr = false
  dp : 10 ≤ pc.rank → ddone = true

section
variable {c : SCfg} {f g : ChunkFn} {pc : SPc} {ds : DS N'} {blocks : List Block} {derr ddone : Bool} {mem : List Byte}

theorem DI.destroy (h : DI c g pc ds blocks derr ddone mem) (hr : pc.rank ≤ 10) : .destroy ∉ ds.log := by
  rw [dmem_user rfl, h.du]
  exact dCalls_destroy hr

theorem DI.evOk (h : DI c g pc ds blocks derr ddone mem) (hr : pc.rank ≤ 10) {ds' : DS N'} {e : DEv} (h' : DReach ds')
    (hl : ds'.log = e :: ds.log) (he : e ≠ .destroy) : DEvOk ds.log e :=
  (dreach_trace h' [] (e :: ds.log) hl (by
    intro hx
    rcases List.mem_cons.1 hx with hx | hx
    · exact he hx.symm
    · exact h.destroy hr hx)).1

/-- When the finalize callback has been called, no block is being decompressed. -/
theorem DI.quiet (h : DI c g pc ds blocks derr ddone mem) (hd : ddone = true) (b : Nat) :
    (ends (dcurOp ds.log)).count b = (begins (dcurOp ds.log)).count b := by
  have := C37_at_most_once h.dr b
  have := (h.dd hd).2 b
  omega

theorem DI.early (h : DI c g pc ds blocks derr ddone mem) {pc' : SPc} {blocks' : List Block} (h1 : pc.rank ≤ 6)
    (h2 : pc'.rank ≤ 6) : DI c g pc' ds blocks' derr ddone mem :=
  { h with
    du := by rw [h.du, dCalls_early h1, dCalls_early h2]
    d0 := fun _ => h.d0 h1
    d9 := fun hx => by have := h.d9 hx; omega
    de := fun _ => h.de (by omega)
    dp := by omega }

theorem DI.silent (h : DI c g pc ds blocks derr ddone mem) {ds' : DS N'} {m' : List Byte} (dr : DReach ds')
    (hl : ds'.log = ds.log) (hm : Flux (dcurOp ds'.log) mem m') : DI c g pc ds' blocks derr ddone m' := by
  refine ⟨dr, by rw [hl]; exact h.du, by rw [hl]; exact h.d0, ?_, hm.1.trans h.ml, by rw [hl]; exact h.dn,
    by rw [hl]; exact h.dd', ?_, h.d9, h.de, h.dp⟩
  · rw [hl] at hm ⊢
    exact memRun_flux h.dm hm
  · intro hd
    rw [hl] at hm ⊢
    rw [flux_none hm fun b hb => by
      have := h.quiet hd b
      unfold running at hb
      omega]
    exact h.dd hd

variable (H : SHyp c f g)

include H in
/-- What C39 needs to know about the compression -/
theorem CI.c39 {r : Nat} {cs : CS N} {cerr cdone : Bool} (h : CI c r cs blocks cerr cdone) (hd : cdone = true) :
    ∃ lc2 lc1, cs.log = lc2 ++ .finalized true :: lc1 ∧ .destroy ∉ lc1 ∧ .finalize true ∉ curOp lc1 ∧
      opSize lc1 = c.inp.length ∧ blocks = (offsets (curOp lc1)).reverse.map c.blk ∧
      (∀ o ∈ offsets (curOp lc1), o % blockSize = 0 ∧ o + blockSize ≤ c.inp.length) ∧
      (∀ o ∈ offsets (curOp lc1), ∃ ptr abuf rets0 sizes0 buf0, rets0.length = 16 ∧ buf0.length = 2 ^ 20 ∧
        compBlock (trivialChunked f) ptr abuf c.inp o rets0 sizes0 buf0 = .ok (c.blk o)) ∧
      (c.nd = true ∨ ∀ o ∈ offsets (curOp lc1), ∀ i < 16, (c.blk o).sizes[i]? ≠ some 65536) := by
  obtain ⟨lc2, lc1, e1, e2, e3, e4, e5⟩ := h.cd hd
  have ht := trace_offsets (creach_trace (epochSetting_of (.inl rfl)) h.cr (lc2 ++ [.finalized true]) lc1
    (by rw [e1]; simp) e2)
  have hw : ∀ o ∈ offsets (curOp lc1), o % blockSize = 0 ∧ o + blockSize ≤ c.inp.length := by
    intro o ho
    rw [← e4]
    exact ht.2 o ho
  refine ⟨lc2, lc1, e1, e2, e3, e4, by rw [← e5]; exact h.bl, hw, fun o ho => H.hblk o (hw o ho).1 (hw o ho).2, ?_⟩
  rcases H.hnd with hx | hx
  · exact .inl hx
  · exact .inr fun o ho => hx o (hw o ho).1 (hw o ho).2

include H in
theorem CI.mem_blocks {r : Nat} {cs : CS N} {cerr cdone : Bool} (h : CI c r cs blocks cerr cdone) {b : Block}
    (hb : b ∈ blocks) : ∃ o ∈ offsets (curOp cs.log), b = c.blk o ∧ b.offset = o := by
  have hx := hb
  rw [h.bl, List.mem_map] at hx
  obtain ⟨o, ho, rfl⟩ := hx
  rw [List.mem_reverse] at ho
  have := (C32_at_most_once (.inl rfl) h.cr).2 o ho
  exact ⟨o, ho, rfl, H.offset this.1 (Nat.le_trans this.2 h.size_le)⟩

theorem DI.rank7 (h : DI c g pc ds blocks derr ddone mem) {ds' : DS N'} {b : Nat} {ok : Bool} {e : DEv}
    (dr' : DReach ds') (hl : ds'.log = e :: ds.log) (he : e = .begin b ∨ e = .ended b ok ∨ e = .finalized ok) :
    7 ≤ pc.rank := by
  by_cases hr : pc.rank ≤ 6
  · exfalso
    have hev := h.evOk (by omega) dr' hl (by rcases he with rfl | rfl | rfl <;> simp)
    rw [h.d0 hr] at hev
    rcases he with rfl | rfl | rfl
    · exact absurd hev.2 (by simp [dcurOp, pushes, begins])
    · exact absurd hev.2 (by simp [dcurOp, ends, begins])
    · obtain ⟨cc, hcc⟩ := hev.1
      cases hcc
  · omega

include H in
theorem DI.handle_spec {cs : CS N} {cerr cdone : Bool} (hC : CI c pc.rank cs blocks cerr cdone) (h7 : 7 ≤ pc.rank)
    {b : Nat} {m : List Byte} {ok : Bool} {m' : List Byte} (hml : m.length = c.inp.length)
    (hh : sHandle c blocks b m ok m') :
    handleBlk c.nd g c.blk b m ok m' ∧ ok = true ∧ m'.length = m.length := by
  obtain ⟨bk, hbk, hoff, ptr, abuf, rets, hr, hx⟩ := hh
  obtain ⟨o, ho, rfl, hoff'⟩ := hC.mem_blocks H hbk
  rw [hoff'] at hoff
  subst hoff
  rw [H.hdc] at hx
  have hhb : handleBlk c.nd g c.blk o m ok m' := ⟨ptr, abuf, rets, hr, hx⟩
  obtain ⟨lc2, lc1, e1, e2, e3, e4, e5, e6, e7, e8⟩ := hC.c39 H (hC.cp (by omega))
  have hmem : o ∈ offsets (curOp lc1) := by
    have := hbk
    rw [e5, List.mem_map] at this
    obtain ⟨o', ho', he⟩ := this
    rw [List.mem_reverse] at ho'
    have h1 := H.offset (e6 o' ho').1 (e6 o' ho').2
    rw [he, hoff'] at h1
    rw [h1]; exact ho'
  have := handleBlk_spec H.hc (.inl rfl) c.inp (List.replicate c.inp.length 0) c.blk c.nd hC.cr e1 e2 e4 e7 e8
    (by rw [List.length_replicate]; exact Nat.div_mul_le_self _ _) o hmem m ok m' (by rw [List.length_replicate]; exact hml) hhb
  exact ⟨hhb, this.1, this.2.1⟩

include H in
theorem DI.ended {cs : CS N} {cerr cdone : Bool} (hC : CI c pc.rank cs blocks cerr cdone)
    (h : DI c g pc ds blocks derr ddone mem) {ds' : DS N'} {b : Nat} {ok : Bool} {m m' : List Byte} (dr' : DReach ds')
    (hl : ds'.log = .ended b ok :: ds.log) (hh : sHandle c blocks b mem ok m) (hm : Flux (dcurOp ds'.log) m m') :
    DI c g pc ds' blocks derr ddone m' := by
  have h7 := h.rank7 (b := b) (ok := ok) dr' hl (.inr (.inl rfl))
  obtain ⟨hhb, hok, hlen⟩ := DI.handle_spec H hC h7 h.ml hh
  subst hok
  have hco : dcurOp ds'.log = .ended b true :: dcurOp ds.log := by rw [hl]; rfl
  refine ⟨dr', by rw [hl]; exact h.du, by omega, ?_, hm.1.trans (hlen.trans h.ml), ?_, ?_, ?_, h.d9, h.de, h.dp⟩
  · rw [hco] at hm ⊢
    exact .ended h.dm hhb hm
  · intro b' hb'
    rw [hl] at hb'
    rcases List.mem_cons.1 hb' with hx | hx
    · cases hx
    · exact h.dn b' hx
  · intro ok hx
    rw [hl] at hx
    rcases List.mem_cons.1 hx with hx | hx
    · cases hx
    · exact h.dd' ok hx
  · intro hd
    exfalso
    have h1 := C37_at_most_once dr' b
    have h2 := h.quiet hd b
    rw [hco] at h1
    have h3 : (ends (DEv.ended b true :: dcurOp ds.log)).count b = (ends (dcurOp ds.log)).count b + 1 :=
      List.count_cons_self
    have h4 : begins (DEv.ended b true :: dcurOp ds.log) = begins (dcurOp ds.log) := rfl
    rw [h3, h4] at h1
    omega

include H in
theorem DI.event {cs : CS N} {cerr cdone : Bool} (hC : CI c pc.rank cs blocks cerr cdone)
    (h : DI c g pc ds blocks derr ddone mem) {t : Fin N'} {ds' : DS N'} {e : DEv} {m' : List Byte} (hw : DWork t ds ds')
    (hl : ds'.log = e :: ds.log) (he : ∀ b ok, e ≠ .ended b ok) (hm : Flux (dcurOp ds'.log) mem m') {s : SS N N'}
    (hs1 : s.ds = ds') (hs2 : s.derr = derr) (hs3 : s.ddone = ddone) (hs4 : s.mem = m') :
    DI c g pc (s.onDEv e).ds blocks (s.onDEv e).derr (s.onDEv e).ddone (s.onDEv e).mem := by
  have dr' : DReach ds' := .work h.dr hw
  have hml : m'.length = c.inp.length := hm.1.trans h.ml
  have hnf : ∀ b, .ended b false ∉ ds'.log := by
    intro b' hb'
    rw [hl] at hb'
    rcases List.mem_cons.1 hb' with hx | hx
    · exact he _ _ hx.symm
    · exact h.dn b' hx
  rcases dwork_ev hw hl with ⟨b, rfl⟩ | ⟨b, ok, rfl⟩ | ⟨ok, rfl⟩
  · have h7 := h.rank7 (b := b) (ok := true) dr' hl (.inl rfl)
    have hco : dcurOp ds'.log = .begin b :: dcurOp ds.log := by rw [hl]; rfl
    show DI c g pc s.ds blocks s.derr s.ddone s.mem
    rw [hs1, hs2, hs3, hs4]
    refine ⟨dr', by rw [hl]; exact h.du, by omega, ?_, hml, hnf, ?_, ?_, h.d9, h.de, h.dp⟩
    · rw [hco] at hm ⊢
      exact .other h.dm (by simp) hm
    · intro ok hx
      rw [hl] at hx
      rcases List.mem_cons.1 hx with hx | hx
      · cases hx
      · exact h.dd' ok hx
    · intro hd
      exfalso
      have h1 := C37_at_most_once dr' b
      have h2 := h.quiet hd b
      have h5 := (h.dd hd).2 b
      rw [hco] at h1
      have h3 : (begins (DEv.begin b :: dcurOp ds.log)).count b = (begins (dcurOp ds.log)).count b + 1 :=
        List.count_cons_self
      have h4 : pushes (DEv.begin b :: dcurOp ds.log) = pushes (dcurOp ds.log) := rfl
      rw [h3, h4] at h1
      omega
  · exact absurd rfl (he b ok)
  · have h7 := h.rank7 (b := 0) (ok := ok) dr' hl (.inr (.inr rfl))
    have hco : dcurOp ds'.log = .finalized ok :: dcurOp ds.log := by rw [hl]; rfl
    have hok : pc.rank ≤ 10 → ok = true := by
      intro hr
      have hev := h.evOk hr dr' hl (by simp)
      cases hx : ok with
      | true => rfl
      | false =>
        obtain ⟨b, hb⟩ := hev.2.2.2.1.1 hx
        exact absurd ((List.takeWhile_subset _) hb) (h.dn b)
    -- the callback comes when the blocks have been decompressed
    have hfin : 9 ≤ pc.rank ∧ mem = sTarget c ∧
        ∀ b, (ends (dcurOp ds.log)).count b = (pushes (dcurOp ds.log)).count b := by
      cases hx : ddone with
      | true => exact ⟨h.d9 hx, h.dd hx⟩
      | false =>
        have hr : pc.rank ≤ 9 := by
          by_cases h10 : 10 ≤ pc.rank
          · have := h.dp h10
            rw [hx] at this; cases this
          · omega
        have hok := hok (by omega)
        subst hok
        have hev := h.evOk (by omega) dr' hl (by simp)
        obtain ⟨cc, hcc⟩ := hev.1
        have h9 : 9 ≤ pc.rank := by
          have hcc := (List.takeWhile_subset _) hcc
          rw [dmem_user rfl, h.du] at hcc
          exact dCalls_finalize_mem hcc
        have hpc : dCalls blocks pc = .finalize false :: pushEvs blocks := by
          cases pc <;> simp only [SPc.rank] at h9 hr <;> first | omega | rfl
        have hnd' : .destroy ∉ ds.log := h.destroy (by omega)
        have hncf : .finalize true ∉ dcurOp ds.log := by
          intro hy
          have hy := (List.takeWhile_subset _) hy
          rw [dmem_user rfl, h.du] at hy
          exact dCalls_finalize hy
        obtain ⟨lc2, lc1, e1, e2, e3, e4, e5, e6, e7, e8⟩ := hC.c39 H (hC.cp (by omega))
        have hatt : attempts (dcurOp ds.log) = offsets (curOp lc1) := by
          rw [attempts_user, dcurOp_user, h.du, hpc]
          show attempts (dcurOp (pushEvs blocks)) = _
          rw [attempts_pushEvs, e5, List.map_map, ← List.map_reverse, List.reverse_reverse]
          conv => rhs; rw [← List.map_id (offsets (curOp lc1))]
          exact List.map_congr_left fun o ho => H.offset (e6 o ho).1 (e6 o ho).2
        have hr := C39_round_trip_partial (N := N) H.hc (.inl rfl) c.inp (List.replicate c.inp.length 0) c.blk c.nd hC.cr e1 e2
          e3 e4 e7 (fun o ho => absurd ((List.takeWhile_subset _) ho) fun ho => hC.nf o (by
            rw [e1]; exact List.mem_append_right _ (List.mem_cons_of_mem _ ho))) e8
          (by rw [List.length_replicate]; exact Nat.div_mul_le_self _ _) dr' (ld2 := []) (ld1 := ds.log) hl hnd' hncf
          (by rw [hatt]) h.dm
        refine ⟨h9, hr.2.2, fun b => ?_⟩
        exact ((C37_blocks_exactly_once dr' (l2 := []) hl hnd' hncf).1.count_eq b)
    have hquiet : ∀ b, ¬ running (dcurOp ds'.log) b := by
      intro b hb
      have h1 := C37_at_most_once h.dr b
      have h2 := hfin.2.2 b
      rw [hco] at hb
      have hb : (ends (dcurOp ds.log)).count b < (begins (dcurOp ds.log)).count b := hb
      omega
    show DI c g pc s.ds blocks (!ok) true s.mem
    rw [hs1, hs4]
    refine ⟨dr', by rw [hl]; exact h.du, by omega, ?_, hml, hnf, fun _ _ => rfl, fun _ => ?_, fun _ => hfin.1, ?_, fun _ => rfl⟩
    · rw [hco] at hm ⊢
      exact .other h.dm (by simp) hm
    · rw [flux_none hm hquiet]
      refine ⟨hfin.2.1, fun b => ?_⟩
      rw [hco]
      exact hfin.2.2 b
    · intro hr
      rw [hok hr]; rfl

theorem DI.start (h : DI c g pc ds blocks derr ddone mem) (h6 : pc.rank = 6) {ds' : DS N'}
    (hu : DUser ds ds') (hl : ds'.log = .start :: ds.log) : DI c g (.dPush 0) ds' blocks derr ddone mem := by
  have h0 := h.d0 (by omega)
  have hd : ddone = false := by
    cases hx : ddone with
    | false => rfl
    | true => have := h.d9 hx; omega
  have hm : mem = List.replicate c.inp.length 0 := by
    have := h.dm
    rw [h0] at this
    cases this
    rfl
  rw [h0] at hl
  refine ⟨.user h.dr hu, by rw [hl]; rfl, by simp [SPc.rank], ?_, h.ml, by rw [hl]; simp, by rw [hl]; simp,
    by rw [hd]; simp, by rw [hd]; simp, fun _ => h.de (by omega), by simp [SPc.rank]⟩
  rw [hl, hm]
  exact .nil

/-- A call other than `start` -/
theorem DI.call (h : DI c g pc ds blocks derr ddone mem) {pc' : SPc} {ds' : DS N'} {e : DEv} (h7 : 7 ≤ pc.rank)
    (h7' : pc.rank ≤ pc'.rank) (hu : DUser ds ds') (hl : ds'.log = e :: ds.log) (hs : DEv.user e = true)
    (hst : e ≠ .start) (hp : (∃ b, e = .push b) → pc.rank = 7) (hd : dCalls blocks pc' = e :: dCalls blocks pc)
    (h10 : 10 ≤ pc'.rank → 10 ≤ pc.rank) :
    DI c g pc' ds' blocks derr ddone mem := by
  have hns : e.isStart = false := by
    cases e with
    | start => exact absurd rfl hst
    | _ => rfl
  have hne : ∀ b ok, e ≠ .ended b ok := by
    intro b ok hx
    subst hx; cases hs
  have hco : dcurOp ds'.log = e :: dcurOp ds.log := by rw [hl]; exact dcurOp_cons hns _
  refine ⟨.user h.dr hu, ?_, by omega, ?_, h.ml, ?_, ?_, ?_, fun hx => Nat.le_trans (h.d9 hx) h7', fun hx => h.de (by omega),
    fun hx => h.dp (h10 hx)⟩
  · rw [hl, List.filter_cons, if_pos hs, h.du, hd]
  · rw [hco]
    exact .other h.dm hne (flux_refl _ _)
  · intro b hb
    rw [hl] at hb
    rcases List.mem_cons.1 hb with hx | hx
    · exact hne _ _ hx.symm
    · exact h.dn b hx
  · intro ok hx
    rw [hl] at hx
    rcases List.mem_cons.1 hx with hx | hx
    · subst hx; cases hs
    · exact h.dd' ok hx
  · intro hx
    refine ⟨(h.dd hx).1, fun b => ?_⟩
    rw [hco]
    have h1 := (h.dd hx).2 b
    have h9 := h.d9 hx
    cases e with
    | push b' => have := hp ⟨b', rfl⟩; omega
    | ended b' ok => exact absurd rfl (hne b' ok)
    | _ => exact h1

end

end Lib842
