import Verif.Model.StreamSample
import Verif.Props.StreamRoundTrip
/-!
# Proofs about the sample program `compdecomp_streams`: invariants
-/

namespace Lib842
open Spec Props

/-- The order of the steps of the main thread -/
def SPc.rank : SPc → Nat
  | .cStart => 0
  | .cClear => 1
  | .cFinalize => 2
  | .cWait => 3
  | .cTest => 4
  | .cJoin _ => 5
  | .dStart => 6
  | .dPush _ => 7
  | .dFinalize => 8
  | .dWait => 9
  | .dTest => 10
  | .dJoin _ => 11
  | .verify => 12
  | .done _ => 13

def Ev.user : Ev → Bool
  | .start _ | .finalize _ | .destroy => true
  | _ => false

def DEv.user : DEv → Bool
  | .start | .push _ | .refused _ | .finalize _ | .destroy => true
  | _ => false

theorem curOp_user : ∀ l : List Ev, (curOp l).filter Ev.user = curOp (l.filter Ev.user)
  | [] => rfl
  | e :: l => by
    have ih := curOp_user l
    cases e with
    | start n => rfl
    | finalize b => exact congrArg (_ :: ·) ih
    | destroy => exact congrArg (_ :: ·) ih
    | block o => exact ih
    | failBlock o => exact ih
    | returned o => exact ih
    | finalized ok => exact ih

theorem opSize_user : ∀ l : List Ev, opSize l = opSize (l.filter Ev.user)
  | [] => rfl
  | e :: l => by
    have ih := opSize_user l
    cases e with
    | start n => rfl
    | _ => exact ih

theorem started_user : ∀ l : List Ev, started l = started (l.filter Ev.user)
  | [] => rfl
  | e :: l => by
    have ih := started_user l
    cases e with
    | start n => rfl
    | _ => exact ih

theorem dcurOp_user : ∀ l : List DEv, (dcurOp l).filter DEv.user = dcurOp (l.filter DEv.user)
  | [] => rfl
  | e :: l => by
    have ih := dcurOp_user l
    cases e with
    | start => rfl
    | finalize b => exact congrArg (_ :: ·) ih
    | push b => exact congrArg (_ :: ·) ih
    | refused b => exact congrArg (_ :: ·) ih
    | destroy => exact congrArg (_ :: ·) ih
    | begin o => exact ih
    | ended o ok => exact ih
    | finalized ok => exact ih

theorem dstarted_user : ∀ l : List DEv, dstarted l = dstarted (l.filter DEv.user)
  | [] => rfl
  | e :: l => by
    have ih := dstarted_user l
    cases e with
    | start => rfl
    | _ => exact ih

theorem attempts_user : ∀ l : List DEv, attempts l = attempts (l.filter DEv.user)
  | [] => rfl
  | e :: l => by
    have ih := attempts_user l
    cases e with
    | push b => exact congrArg (_ :: ·) ih
    | refused b => exact congrArg (_ :: ·) ih
    | _ => exact ih

theorem pushes_user : ∀ l : List DEv, pushes l = pushes (l.filter DEv.user)
  | [] => rfl
  | e :: l => by
    have ih := pushes_user l
    cases e with
    | push b => exact congrArg (_ :: ·) ih
    | _ => exact ih

theorem mem_user {l : List Ev} {e : Ev} (he : Ev.user e = true) : e ∈ l ↔ e ∈ l.filter Ev.user := by
  rw [List.mem_filter]; simp [he]

theorem dmem_user {l : List DEv} {e : DEv} (he : DEv.user e = true) : e ∈ l ↔ e ∈ l.filter DEv.user := by
  rw [List.mem_filter]; simp [he]

variable {N N' : Nat}

/-- What the main thread has called so far -/
def cCalls (L : Nat) : Nat → List Ev
  | 0 => []
  | 1 | 2 => [.start L]
  | 3 | 4 => [.finalize false, .start L]
  | _ => [.destroy, .finalize false, .start L]

def pushEvs (blocks : List Block) : List DEv := (blocks.map fun b => .push b.offset).reverse ++ [.start]

def dCalls (blocks : List Block) : SPc → List DEv
  | .dPush i => pushEvs (blocks.take i)
  | .dFinalize => pushEvs blocks
  | .dWait | .dTest => .finalize false :: pushEvs blocks
  | .dJoin _ | .verify | .done _ => .destroy :: .finalize false :: pushEvs blocks
  | _ => []

/-- Assumptions on the configuration -/
structure SHyp (c : SCfg) (f g : ChunkFn) : Prop where
  hc : ChunkContract f g
  hdc : c.dc = trivialChunked g
  hlen : c.inp.length < 2 ^ 63
  hblk : ∀ o, o % blockSize = 0 → o + blockSize ≤ c.inp.length → ∃ ptr abuf rets0 sizes0 buf0, rets0.length = 16 ∧
    buf0.length = 2 ^ 20 ∧ compBlock (trivialChunked f) ptr abuf c.inp o rets0 sizes0 buf0 = .ok (c.blk o)
  hnd : c.nd = true ∨ ∀ o, o % blockSize = 0 → o + blockSize ≤ c.inp.length → ∀ i < 16,
    (c.blk o).sizes[i]? ≠ some 65536

theorem SHyp.offset {c : SCfg} {f g : ChunkFn} (H : SHyp c f g) {o : Nat} (h1 : o % blockSize = 0)
    (h2 : o + blockSize ≤ c.inp.length) : (c.blk o).offset = o := by
  obtain ⟨ptr, abuf, rets0, sizes0, buf0, q1, q2, q3⟩ := H.hblk o h1 h2
  obtain ⟨b, e1, e2, _⟩ := compBlock_holds H.hc ptr abuf c.inp o rets0 sizes0 buf0 h2 q1 q2
  rw [q3] at e1
  cases e1
  exact e2

theorem SHyp.offset_ne {c : SCfg} {f g : ChunkFn} (H : SHyp c f g) {o : Nat} (h1 : o % blockSize = 0)
    (h2 : o + blockSize ≤ c.inp.length) : (c.blk o).offset ≠ SIZE_MAX := by
  rw [H.offset h1 h2]
  have := H.hlen
  unfold SIZE_MAX
  omega

/-- A thread that delivers an error block has got one. -/
def HF (c : SCfg) (cs : CS N) : Prop :=
  ∀ u, (cs.thr u).pc = .failed ∨ (cs.thr u).pc = .deliver false → (c.blk (cs.thr u).off).offset = SIZE_MAX

/-- The compression has been reported as successful. -/
def CFin (c : SCfg) (l : List Ev) : Prop :=
  ∃ lc2 lc1, l = lc2 ++ .finalized true :: lc1 ∧ .destroy ∉ lc1 ∧ .finalize true ∉ curOp lc1 ∧
    opSize lc1 = c.inp.length ∧ offsets (curOp l) = offsets (curOp lc1)

/-- Invariant of the compression stream and its callbacks -/
structure CI (c : SCfg) (r : Nat) (cs : CS N) (blocks : List Block) (cerr cdone : Bool) : Prop where
  cr : CReach (setEpoch 0) cs
  cu : cs.log.filter Ev.user = cCalls c.inp.length r
  hf : HF c cs
  nf : ∀ o, .failBlock o ∉ cs.log
  bl : blocks = (offsets (curOp cs.log)).reverse.map c.blk
  c0 : r = 0 → cs.log = []
  ce : r ≤ 4 → cerr = false
  cd' : ∀ ok, .finalized ok ∈ cs.log → cdone = true
  cd : cdone = true → CFin c cs.log
  cp : 4 ≤ r → cdone = true

section
variable {c : SCfg} {f g : ChunkFn} (H : SHyp c f g)

theorem cCalls_ge {L r : Nat} (h : 5 ≤ r) : cCalls L r = [.destroy, .finalize false, .start L] := by
  match r with
  | 0 | 1 | 2 | 3 | 4 => omega
  | r + 5 => rfl

theorem cCalls_destroy {L r : Nat} (h : r ≤ 4) : Ev.destroy ∉ cCalls L r := by
  match r with
  | 0 => simp [cCalls]
  | 1 => simp [cCalls]
  | 2 => simp [cCalls]
  | 3 => simp [cCalls]
  | 4 => simp [cCalls]
  | r + 5 => omega

theorem cCalls_size {L r : Nat} (h : r ≠ 0) : opSize (cCalls L r) = L := by
  match r with
  | 0 => omega
  | 1 | 2 | 3 | 4 => rfl
  | r + 5 => rfl

theorem cCalls_finalize {L r : Nat} : Ev.finalize true ∉ cCalls L r := by
  match r with
  | 0 => simp [cCalls]
  | 1 => simp [cCalls]
  | 2 => simp [cCalls]
  | 3 => simp [cCalls]
  | 4 => simp [cCalls]
  | r + 5 => simp [cCalls]

theorem cCalls_curOp {L r : Nat} {cc : Bool} (h : Ev.finalize cc ∈ curOp (cCalls L r)) : 3 ≤ r := by
  match r with
  | 0 => simp [cCalls, curOp] at h
  | 1 => simp [cCalls, curOp, Ev.isStart] at h
  | 2 => simp [cCalls, curOp, Ev.isStart] at h
  | r + 3 => omega

variable {r : Nat} {cs : CS N} {blocks : List Block} {cerr cdone : Bool}

theorem CI.mono {r' : Nat} (h : CI c r cs blocks cerr cdone) (h5 : 5 ≤ r) (h5' : 5 ≤ r') : CI c r' cs blocks cerr cdone :=
  { h with
    cu := by rw [h.cu, cCalls_ge h5, cCalls_ge h5']
    c0 := by omega
    ce := by omega
    cp := fun _ => h.cp (by omega) }

theorem CI.destroy (h : CI c r cs blocks cerr cdone) (hr : r ≤ 4) : .destroy ∉ cs.log := by
  rw [mem_user rfl, h.cu]
  exact cCalls_destroy hr

theorem CI.size (h : CI c r cs blocks cerr cdone) (hr : r ≠ 0) : opSize cs.log = c.inp.length := by
  rw [opSize_user, h.cu, cCalls_size hr]

theorem CI.size_le (h : CI c r cs blocks cerr cdone) : opSize cs.log ≤ c.inp.length := by
  by_cases hr : r = 0
  · rw [h.c0 hr]; exact Nat.zero_le _
  · exact Nat.le_of_eq (h.size hr)

/-- The trace after one more event, before the destructor -/
theorem CI.evOk (h : CI c r cs blocks cerr cdone) (hr : r ≤ 4) {cs' : CS N} {e : Ev} (h' : CReach (setEpoch 0) cs')
    (hl : cs'.log = e :: cs.log) (he : e ≠ .destroy) : EvOk (setEpoch 0) cs.log e :=
  (creach_trace (epochSetting_of (.inl rfl)) h' [] (e :: cs.log) hl (by
    intro hx
    rcases List.mem_cons.1 hx with hx | hx
    · exact he hx.symm
    · exact h.destroy hr hx)).1

theorem CFin.perm (h : CI c r cs blocks cerr cdone) (hd : cdone = true) :
    (offsets (curOp cs.log)).Perm ((List.range (c.inp.length / blockSize)).map (· * blockSize)) := by
  obtain ⟨lc2, lc1, e1, e2, e3, e4, e5⟩ := h.cd hd
  have := (C32_blocks_exactly_once (.inl rfl) h.cr (l1 := .finalized true :: lc1) (l2 := lc2) e1 (by simpa using e2)
    List.mem_cons_self (by
      show Ev.finalize true ∉ Ev.finalized true :: curOp lc1
      simpa using e3)).1
  rw [e5, ← e4]
  exact this

/-- After the end of the operation no block is delivered. -/
theorem CI.no_more (h : CI c r cs blocks cerr cdone) (hd : cdone = true) {cs' : CS N} {e : Ev} {o : Nat}
    (h' : CReach (setEpoch 0) cs') (hl : cs'.log = e :: cs.log) (he : e = .block o ∨ e = .failBlock o) : False := by
  obtain ⟨h1, h2⟩ := C32_at_most_once (.inl rfl) h'
  have hco : offsets (curOp cs'.log) = o :: offsets (curOp cs.log) := by
    rw [hl]
    rcases he with rfl | rfl <;> rfl
  have hos : opSize cs'.log = opSize cs.log := by
    rw [hl]
    rcases he with rfl | rfl <;> rfl
  rw [hco] at h1 h2
  obtain ⟨h3, h4⟩ := h2 o List.mem_cons_self
  refine (List.nodup_cons.1 h1).1 ((CFin.perm h hd).mem_iff.2 (List.mem_map.2 ⟨o / blockSize, List.mem_range.2 ?_, ?_⟩))
  · rw [hos] at h4
    have := h.size_le
    have : o < o + blockSize := Nat.lt_add_of_pos_right (by decide)
    unfold blockSize at *
    omega
  · unfold blockSize at *
    omega

/-- Events of worker threads -/
theorem cwork_ev {k : Option Nat} {t : Fin N} {s s' : CS N} {e : Ev} (h : CWork k t s s') (hl : s'.log = e :: s.log) :
    (∃ o, e = .block o) ∨ (e = .failBlock (s.thr t).off ∧ (s.thr t).pc = .deliver false) ∨ (∃ o, e = .returned o) ∨
    ∃ ok, e = .finalized ok := by
  have key : s.log = e :: s.log → False := fun hx => by
    have := congrArg List.length hx
    simp at this
  cases h
  case deliver ok hp =>
    cases ok with
    | true =>
      have : Ev.block (s.thr t).off :: s.log = e :: s.log := hl
      cases this
      exact .inl ⟨_, rfl⟩
    | false =>
      have : Ev.failBlock (s.thr t).off :: s.log = e :: s.log := hl
      cases this
      exact .inr (.inl ⟨rfl, hp⟩)
  case callDone hp =>
    have : Ev.returned (s.thr t).off :: s.log = e :: s.log := hl
    cases this
    exact .inr (.inr (.inl ⟨_, rfl⟩))
  case callback ok hp =>
    have : Ev.finalized ok :: s.log = e :: s.log := hl
    cases this
    exact .inr (.inr (.inr ⟨_, rfl⟩))
  all_goals exact (key hl).elim

theorem hf_set {cs : CS N} (h : HF c cs) {t : Fin N} {th : CThr} {thr' : Fin N → CThr}
    (hth : th.pc = .failed ∨ th.pc = .deliver false → (c.blk th.off).offset = SIZE_MAX)
    (e : thr' = Function.update cs.thr t th) :
    ∀ u, (thr' u).pc = .failed ∨ (thr' u).pc = .deliver false → (c.blk (thr' u).off).offset = SIZE_MAX := by
  subst e
  intro u
  by_cases hu : u = t
  · subst hu; rw [Function.update_self]; exact hth
  · rw [Function.update_of_ne hu]; exact h u

theorem hf_work {k : Option Nat} {t : Fin N} {s s' : CS N} (h : CWork k t s s') (hh : CHandle c t s s') (hf : HF c s) :
    HF c s' := by
  cases h
  case epochEnd hp =>
    refine hf_set hf ?_ rfl
    show (if _ then CPc.fin else CPc.handle) = _ ∨ (if _ then CPc.fin else CPc.handle) = _ → _
    split <;> simp
  case finOut hp _ =>
    refine hf_set hf ?_ rfl
    show (if _ then CPc.reset else CPc.top) = _ ∨ (if _ then CPc.reset else CPc.top) = _ → _
    split <;> simp
  case recheck => exact hf
  case handleFail hp =>
    refine hf_set hf (fun _ => ?_) rfl
    exact hh.2 hp (by show ((Function.update s.thr t _) t).pc = _; rw [Function.update_self])
  case failed hp =>
    refine hf_set hf (fun _ => ?_) rfl
    exact hf t (.inl hp)
  all_goals
    refine hf_set hf ?_ rfl
    simp

theorem hf_wake {cs : CS N} (h : HF c cs) {thr' : Fin N → CThr} (e : thr' = fun t => (cs.thr t).wake) :
    ∀ u, (thr' u).pc = .failed ∨ (thr' u).pc = .deliver false → (c.blk (thr' u).off).offset = SIZE_MAX := by
  subst e
  intro u hu
  have hw : ((cs.thr u).wake.pc = .failed ∨ (cs.thr u).wake.pc = .deliver false) →
      (cs.thr u).wake = cs.thr u := by
    unfold CThr.wake
    split <;> simp
  have hw := hw hu
  have hu' : (cs.thr u).wake.pc = .failed ∨ (cs.thr u).wake.pc = .deliver false := hu
  show (c.blk (cs.thr u).wake.off).offset = _
  rw [hw] at hu' ⊢
  exact h u hu'

theorem hf_user {s s' : CS N} (h : CUser s s') (hf : HF c s) : HF c s' := by
  cases h <;> exact hf_wake hf rfl

theorem hf_spurious {s s' : CS N} (h : CSpurious s s') (hf : HF c s) : HF c s' := by
  cases h
  case cv t hp =>
    refine hf_set hf ?_ rfl
    intro hx
    exact hf_wake hf rfl t hx
  case bar => exact hf

theorem CI.silent (h : CI c r cs blocks cerr cdone) {cs' : CS N} (cr : CReach (setEpoch 0) cs') (hf : HF c cs')
    (hl : cs'.log = cs.log) : CI c r cs' blocks cerr cdone :=
  ⟨cr, by rw [hl]; exact h.cu, hf, by rw [hl]; exact h.nf, by rw [hl]; exact h.bl, by rw [hl]; exact h.c0, h.ce,
    by rw [hl]; exact h.cd', by rw [hl]; exact h.cd, h.cp⟩

include H

/-- An event of a worker thread and its callback -/
theorem CI.event (h : CI c r cs blocks cerr cdone) {t : Fin N} {cs' : CS N} {e : Ev}
    (hw : CWork (setEpoch 0) t cs cs') (hh : CHandle c t cs cs') (hl : cs'.log = e :: cs.log) {s : SS N N'}
    (hs1 : s.cs = cs') (hs2 : s.blocks = blocks) (hs3 : s.cerr = cerr) (hs4 : s.cdone = cdone) :
    CI c r (s.onEv c e).cs (s.onEv c e).blocks (s.onEv c e).cerr (s.onEv c e).cdone := by
  have cr' : CReach (setEpoch 0) cs' := .work h.cr hw
  have hf' := hf_work hw hh h.hf
  have hcdF : cdone = false → r ≤ 3 := fun hx => by
    by_cases h4 : 4 ≤ r
    · have := h.cp h4
      rw [hx] at this; cases this
    · omega
  -- a block that is delivered is a whole block of the input
  have hblock : ∀ o, e = .block o ∨ e = .failBlock o → cdone = false ∧ r ≠ 0 ∧ o % blockSize = 0 ∧
      o + blockSize ≤ c.inp.length := by
    intro o ho
    have hcd : cdone = false := by
      cases hx : cdone with
      | false => rfl
      | true => exact (h.no_more hx cr' hl ho).elim
    have hr := hcdF hcd
    have hev := h.evOk (by omega) cr' hl (by rcases ho with rfl | rfl <;> simp)
    have hev' : o % blockSize = 0 ∧ o + blockSize ≤ opSize cs.log := by
      rcases ho with rfl | rfl
      · exact ⟨hev.2.1, hev.2.2.1⟩
      · exact ⟨hev.2.1, hev.2.2.1⟩
    refine ⟨hcd, ?_, hev'.1, Nat.le_trans hev'.2 h.size_le⟩
    intro h0
    have := hev'.2
    rw [h.c0 h0] at this
    unfold opSize blockSize at this
    omega
  rcases cwork_ev hw hl with ⟨o, rfl⟩ | ⟨rfl, hp⟩ | ⟨o, rfl⟩ | ⟨ok, rfl⟩
  · obtain ⟨hcd, h0, ho1, ho2⟩ := hblock o (.inl rfl)
    have hr := hcdF hcd
    have hcerr := h.ce (by omega)
    have hne := H.offset_ne ho1 ho2
    have hc' : (s.cerr || (c.blk o).offset == SIZE_MAX) = false := by
      rw [hs3, hcerr]; simpa using hne
    have hco : curOp cs'.log = .block o :: curOp cs.log := by rw [hl]; rfl
    show CI c r s.cs (if s.cerr || (c.blk o).offset == SIZE_MAX then s.blocks else s.blocks ++ [c.blk o])
      (s.cerr || (c.blk o).offset == SIZE_MAX) s.cdone
    rw [hc', hs1, hs2, hs4, if_neg (by simp)]
    refine ⟨cr', by rw [hl]; exact h.cu, hf', ?_, ?_, fun hx => absurd hx h0, fun _ => rfl, ?_, ?_, h.cp⟩
    · intro o' ho'
      rw [hl] at ho'
      rcases List.mem_cons.1 ho' with hx | hx
      · cases hx
      · exact h.nf o' hx
    · rw [hco]
      show _ = (o :: offsets (curOp cs.log)).reverse.map c.blk
      rw [List.reverse_cons, List.map_append, ← h.bl]
      rfl
    · intro ok hx
      rw [hl] at hx
      rcases List.mem_cons.1 hx with hx | hx
      · cases hx
      · exact h.cd' ok hx
    · intro hx; rw [hcd] at hx; cases hx
  · obtain ⟨_, _, ho1, ho2⟩ := hblock _ (.inr rfl)
    exact absurd (h.hf t (.inr hp)) (H.offset_ne ho1 ho2)
  · have hco : offsets (curOp cs'.log) = offsets (curOp cs.log) := by rw [hl]; rfl
    show CI c r s.cs s.blocks s.cerr s.cdone
    rw [hs1, hs2, hs3, hs4]
    refine ⟨cr', by rw [hl]; exact h.cu, hf', ?_, by rw [hco]; exact h.bl, ?_, h.ce, ?_, ?_, h.cp⟩
    · intro o' ho'
      rw [hl] at ho'
      rcases List.mem_cons.1 ho' with hx | hx
      · cases hx
      · exact h.nf o' hx
    · intro h0
      have hev := h.evOk (by omega) cr' hl (by simp)
      rw [h.c0 h0] at hev
      exact absurd hev.1 (by simp [curOp, offsets])
    · intro ok hx
      rw [hl] at hx
      rcases List.mem_cons.1 hx with hx | hx
      · cases hx
      · exact h.cd' ok hx
    · intro hx
      obtain ⟨lc2, lc1, e1, e2, e3, e4, e5⟩ := h.cd hx
      exact ⟨_ :: lc2, lc1, by rw [hl, e1]; rfl, e2, e3, e4, by rw [hco]; exact e5⟩
  · have hco : offsets (curOp cs'.log) = offsets (curOp cs.log) := by rw [hl]; rfl
    have hok : r ≤ 4 → ok = true := by
      intro hr
      have hev := h.evOk hr cr' hl (by simp)
      cases hx : ok with
      | true => rfl
      | false =>
        obtain ⟨o, ho⟩ := hev.2.2.2.1.1 hx
        exact absurd ((List.takeWhile_subset _) ho) (h.nf o)
    show CI c r s.cs s.blocks (s.cerr || !ok) true
    rw [hs1, hs2, hs3]
    refine ⟨cr', by rw [hl]; exact h.cu, hf', ?_, by rw [hco]; exact h.bl, ?_, ?_, fun _ _ => rfl, ?_, fun _ => rfl⟩
    · intro o' ho'
      rw [hl] at ho'
      rcases List.mem_cons.1 ho' with hx | hx
      · cases hx
      · exact h.nf o' hx
    · intro h0
      have hev := h.evOk (by omega) cr' hl (by simp)
      rw [h.c0 h0] at hev
      obtain ⟨cc, hcc⟩ := hev.1
      cases hcc
    · intro hr
      rw [h.ce hr, hok hr]; rfl
    · intro _
      cases hx : cdone with
      | true =>
        obtain ⟨lc2, lc1, e1, e2, e3, e4, e5⟩ := h.cd hx
        exact ⟨_ :: lc2, lc1, by rw [hl, e1]; rfl, e2, e3, e4, by rw [hco]; exact e5⟩
      | false =>
        have hr := hcdF hx
        have hev := h.evOk (by omega) cr' hl (by simp)
        obtain ⟨cc, hcc⟩ := hev.1
        have h3 : 3 ≤ r := by
          rw [mem_user rfl, curOp_user, h.cu] at hcc
          exact cCalls_curOp hcc
        refine ⟨[], cs.log, by rw [hl, hok (by omega)]; rfl, h.destroy (by omega), ?_, h.size (by omega), hco⟩
        intro hy
        have hy := (List.takeWhile_subset _) hy
        rw [mem_user rfl, h.cu] at hy
        exact cCalls_finalize hy

end

end Lib842
