import Verif.Proofs.WordComp
/-!
# The whole of `sw842_compress` with machine arithmetic
-/

namespace Lib842

abbrev CRelV {α β : Type} (b0 : List Byte) (i0 : BitVec 64) (v : α → β) := @RelV CompW Comp α β CompW.nat (CompW.Inv b0 i0) v

variable (b0 : List Byte) {i0 : BitVec 64} (e : Endian)

theorem rel_add {p : CompW} (hp : p.Inv b0 i0) (d : BitVec 64) (n : BitVec 8) (m : Nat) (hm : n.toNat = m) (h1 : 1 ≤ m) :
    CRel b0 i0 p (liftWW (addBitsW e d n)) (liftW (addBits e d m)) :=
  rel_liftW hp.ilen (rel_addB b0 e hp.w d n m hm h1)

theorem rel_addActions : ∀ (ts : List Nat) (b : Nat) {p : CompW}, p.Inv b0 i0 → CRel b0 i0 p (addActionsW e ts b) (addActions e ts b)
  | [], _, _, hp => .pure hp _
  | t :: ts, b, p, hp => by
    have fin : ∀ (inv : Bool) {p : CompW}, p.Inv b0 i0 → CRel b0 i0 p (if inv = true then M.fail .EINVAL else addActionsW e ts (b + amount t))
        (if inv = true then M.fail .EINVAL else addActions e ts (b + amount t)) :=
      fun _ _ hp => .ite Iff.rfl (fun _ => .fail _) fun _ => rel_addActions ts _ hp
    have P : ∀ (inv : Bool) {p : CompW}, p.Inv b0 i0 → CRel b0 i0 p
        (Pure.pure inv >>= fun inv : Bool => if inv = true then M.fail .EINVAL else addActionsW e ts (b + amount t))
        (Pure.pure inv >>= fun inv : Bool => if inv = true then M.fail .EINVAL else addActions e ts (b + amount t)) :=
      fun _ _ hp => .bind (.pure hp _) fun _ _ _ hp' => fin _ hp'
    have Q : ∀ {α : Type} (f : CompW → CompW → Option α) (f' : Comp → Comp → Option α) (_ : f p p = f' p.nat p.nat) (g : α → BitVec 64) (n : BitVec 8) (m : Nat)
        (_ : n.toNat = m) (inv : Bool), 1 ≤ m → CRel b0 i0 p
        (M.get >>= fun p => M.access (f p) >>= fun v => liftWW (addBitsW e (g v) n) >>= fun _ => Pure.pure inv >>= fun inv : Bool =>
          (if inv = true then M.fail .EINVAL else addActionsW e ts (b + amount t)))
        (M.get >>= fun p => M.access (f' p) >>= fun v => liftW (addBits e (g v) m) >>= fun _ => Pure.pure inv >>= fun inv : Bool =>
          (if inv = true then M.fail .EINVAL else addActions e ts (b + amount t))) :=
      fun f f' hf g n m hm inv h1 => .get (.bind (.access hp hf) fun _ _ _ h1' => .bind (rel_add b0 e h1' _ n m hm h1) fun _ _ _ h2 => P _ h2)
    unfold addActionsW addActions
    dsimp only
    refine .ite Iff.rfl (fun _ => .ite Iff.rfl (fun _ => P _ hp) fun _ => .ite Iff.rfl (fun _ => Q _ _ rfl _ 8#8 8 rfl _ (by decide)) fun _ =>
        .ite Iff.rfl (fun _ => Q _ _ rfl (fun d => d) 64#8 64 rfl _ (by decide)) fun _ => P _ hp) fun _ =>
      .ite Iff.rfl (fun _ => .ite Iff.rfl (fun _ => Q _ _ rfl _ 32#8 32 rfl _ (by decide)) fun _ => .ite Iff.rfl (fun _ => P _ hp) fun _ =>
        .ite Iff.rfl (fun _ => Q _ _ rfl _ 9#8 9 rfl _ (by decide)) fun _ => .ite Iff.rfl (fun _ => Q _ _ rfl _ 32#8 32 rfl _ (by decide)) fun _ => P _ hp) fun _ =>
      .ite Iff.rfl (fun _ => .ite Iff.rfl (fun _ => Q _ _ rfl _ 8#8 8 rfl _ (by decide)) fun _ =>
        .ite Iff.rfl (fun _ => Q _ _ rfl _ 16#8 16 rfl _ (by decide)) fun _ => P _ hp) fun _ =>
      .ite Iff.rfl (fun _ => P _ hp) fun _ => P _ hp

theorem rel_addTemplate (c : Nat) {p : CompW} (hp : p.Inv b0 i0) : CRel b0 i0 p (addTemplateW e c) (addTemplate e c) := by
  unfold addTemplateW addTemplate
  exact .ite Iff.rfl (fun _ => .fail _) fun _ => .bind (.access hp rfl) fun _ _ _ h1 => .bind (.access h1 rfl) fun _ _ _ h2 =>
    .bind (rel_add b0 e h2 _ 5#8 5 rfl (by decide)) fun _ _ _ h3 => .bind (rel_addActions b0 e _ _ h3) fun _ _ _ h4 =>
    .ite Iff.rfl (fun _ => .fail _) fun _ => .pure h4 _

theorem rel_addRepeat (r : BitVec 8) {p : CompW} (hp : p.Inv b0 i0) : CRel b0 i0 p (addRepeatW e r) (addRepeat e r.toNat) := by
  unfold addRepeatW addRepeat
  have hr : r ≠ 0#8 → (r - 1#8).toNat = r.toNat - 1 := by
    intro h
    have : r.toNat ≠ 0 := fun h0 => h (BitVec.eq_of_toNat_eq h0)
    rw [BitVec.toNat_sub]
    have := r.isLt
    show (2 ^ 8 - 1 + r.toNat) % 2 ^ 8 = _
    omega
  refine .ite ?_ (fun _ => .fail _) fun h => ?_
  · by_cases h0 : r = 0#8
    · subst h0; decide
    · have h1 : r.toNat ≠ 0 := fun h => h0 (BitVec.eq_of_toNat_eq h)
      rw [gt_iff_lt, wlt, hr h0]
      simp only [h0, h1, false_or]
      exact Iff.rfl
  · have h0 : r ≠ 0#8 := fun hc => h (Or.inl hc)
    have hd : BitVec.ofNat 64 (r.toNat - 1) = (r - 1#8).setWidth 64 := by
      apply BitVec.eq_of_toNat_eq
      rw [BitVec.toNat_ofNat, BitVec.toNat_setWidth, hr h0]
    rw [hd]
    exact .bind (rel_add b0 e hp _ 5#8 5 rfl (by decide)) fun _ _ _ h1 => rel_add b0 e h1 _ 6#8 6 rfl (by decide)

theorem rel_addShortBytes : ∀ (n i : Nat) {p : CompW}, p.Inv b0 i0 → CRel b0 i0 p (addShortBytesW e n i) (addShortBytes e n i)
  | 0, _, _, hp => .pure hp _
  | n + 1, i, _, hp => .bind (.access hp rfl) fun _ _ _ h1 => .bind (rel_add b0 e h1 _ 8#8 8 rfl (by decide)) fun _ _ _ h2 => rel_addShortBytes n _ h2

theorem rel_addShortData (b : BitVec 8) {p : CompW} (hp : p.Inv b0 i0) : CRel b0 i0 p (addShortDataW e b) (addShortData e b.toNat) := by
  unfold addShortDataW addShortData
  refine .ite ?_ (fun _ => .fail _) fun _ => ?_
  · rw [gt_iff_lt, wlt, ← BitVec.toNat_inj]; exact Iff.rfl
  · have hd : BitVec.ofNat 64 b.toNat = b.setWidth 64 := by
      apply BitVec.eq_of_toNat_eq
      rw [BitVec.toNat_ofNat, BitVec.toNat_setWidth]
    rw [hd]
    exact .bind (rel_add b0 e hp _ 5#8 5 rfl (by decide)) fun _ _ _ h1 => .bind (rel_add b0 e h1 _ 3#8 3 rfl (by decide)) fun _ _ _ h2 =>
      rel_addShortBytes b0 e _ _ h2

theorem rel_processNext {p : CompW} (hp : p.Inv b0 i0) : CRel b0 i0 p (processNextW e) (processNext e) := by
  unfold processNextW processNext
  exact .bind (.modify rfl ⟨hp.w, hp.ilen⟩) fun _ _ _ h1 => .bind (rel_liftC h1 (same_findTemplate _ _ _ _)) fun _ _ _ h2 => rel_addTemplate b0 e _ h2

theorem rel_ignore {p : CompW} (hp : p.Inv b0 i0) {x : M CompW Unit} {y : M Comp Unit} (h : CRel b0 i0 p x y) (hy : Pres (CTail b0) y)
    (hx : Pres (fun q : CompW => q.ilen = i0) x) :
    CRel b0 i0 p (M.ignore x) (M.ignore y) := by
  have heq := h.eq
  have hyy := hy p.nat hp.w
  constructor
  · unfold M.ignore
    rw [← heq]
    cases x p <;> rfl
  · intro a p' he
    unfold M.ignore at he
    cases hr : x p with
    | ok v w => rw [hr] at he; cases he; exact h.inv _ _ hr
    | err er w => rw [hr] at he heq; cases he; exact ⟨hyy.2 er _ heq.symm, (hx p hp.ilen).2 er _ hr⟩
    | ub => rw [hr] at he; cases he
    | timeout => rw [hr] at he; cases he

theorem ilen_lift {α : Type} (x : M WriterW α) : Pres (fun q : CompW => q.ilen = i0) (liftWW x) := by
  intro p hp
  unfold liftWW
  cases x p.w with
  | ok a w => exact ⟨fun _ _ h => (by cases h; exact hp), fun _ _ h => (by cases h)⟩
  | err er w => exact ⟨fun _ _ h => (by cases h), fun _ _ h => (by cases h; exact hp)⟩
  | ub => exact ⟨fun _ _ h => (by cases h), fun _ _ h => (by cases h)⟩
  | timeout => exact ⟨fun _ _ h => (by cases h), fun _ _ h => (by cases h)⟩

theorem ilen_addRepeat (r : BitVec 8) : Pres (fun q : CompW => q.ilen = i0) (addRepeatW e r) := by
  unfold addRepeatW
  exact .ite (.fail _) (.bind (ilen_lift _) fun _ => ilen_lift _)

theorem rel_compStep (next last : BitVec 64) (rc : BitVec 8) {p : CompW} (hp : p.Inv b0 i0) :
    CRelV b0 i0 BitVec.toNat p (compStepW e next last rc) (compStep e next last rc.toNat) := by
  unfold compStepW compStep
  dsimp only
  have hrc : (if next = last then (rc.toNat + 1) % 2 ^ 8 else rc.toNat) = (if next = last then rc + 1#8 else rc).toNat := by
    split
    · rw [BitVec.toNat_add]; rfl
    · rfl
  rw [hrc]
  generalize (if next = last then rc + 1#8 else rc) = r
  have h0 : r ≠ 0#8 ↔ r.toNat ≠ 0 := by
    rw [Ne, Ne, ← BitVec.toNat_inj]; exact Iff.rfl
  refine .ite (by rw [wle]; exact Iff.rfl) (fun _ => .pure hp rfl) fun _ => .ite h0 (fun _ => ?_) fun _ => ?_
  · refine .bind (rel_ignore b0 hp (rel_addRepeat b0 e r hp) (pres_addRepeat b0 e _) (ilen_addRepeat e r)) fun _ p1 _ h1 => .ite Iff.rfl (fun _ => .pure h1 rfl) fun _ => ?_
    exact .ite Iff.rfl (fun _ => .bind (rel_add b0 e h1 _ 5#8 5 rfl (by decide)) fun _ _ _ h2 => .pure h2 rfl) fun _ =>
      .bind (rel_processNext b0 e h1) fun _ _ _ h2 => .pure h2 rfl
  · exact .ite Iff.rfl (fun _ => .bind (rel_add b0 e hp _ 5#8 5 rfl (by decide)) fun _ _ _ h2 => .pure h2 rfl) fun _ =>
      .bind (rel_processNext b0 e hp) fun _ _ _ h2 => .pure h2 rfl

/-- The invariant for any `ilen` -/
def CompW.InvL (b0 : List Byte) (p : CompW) : Prop := WTail b0 p.w.nat

theorem CompW.InvL.at {b0 : List Byte} {p : CompW} (h : p.InvL b0) : p.Inv b0 p.ilen := ⟨h, rfl⟩

theorem rel_compLoop : ∀ (fuel : Nat) (last : BitVec 64) (rc : BitVec 8) {p : CompW}, p.InvL b0 →
    RelV CompW.nat (CompW.InvL b0) BitVec.toNat p (compLoopW e fuel last rc) (compLoop e fuel last rc.toNat)
  | 0, _, _, _, _ => .timeout
  | fuel + 1, last, rc, p, hp => by
    unfold compLoopW compLoop
    refine .get (.ite (by rw [gt_iff_lt, wlt]; exact Iff.rfl) (fun hi => ?_) fun _ => .pure hp rfl)
    rw [gt_iff_lt, wlt] at hi
    refine .bind (.access hp.at rfl) fun next p1 _ h1 => .bind (rel_liftC h1 (same_getNextData _ _ e)) fun _ p2 _ h2 =>
      .bindV (rel_compStep b0 e next last rc h2) fun rc' p3 _ h3 => .bind (rel_liftC h3 (same_updateHashtables _ _)) fun _ p4 _ h4 =>
      .bind (.modify ?_ (show CompW.InvL b0 _ from h4.w)) fun _ p5 _ h5 => rel_compLoop fuel next rc' h5
    have : (p4.ilen - 8#64).toNat = p4.nat.ilen - 8 := by
      rw [h4.ilen, BitVec.toNat_sub]
      show _ = p4.ilen.toNat - 8
      rw [h4.ilen]
      have := p.ilen.isLt
      show (2 ^ 64 - 8 + p.ilen.toNat) % 2 ^ 64 = _
      change 7 < p.ilen.toNat at hi
      omega
    unfold CompW.nat at *
    simp only [this]

/-- At the end of the loop, fewer than 8 bytes are left -/
theorem compLoopW_rest : ∀ (fuel : Nat) (last : BitVec 64) (rc : BitVec 8) {p p' : CompW} {r : BitVec 8}, compLoopW e fuel last rc p = .ok r p' → p'.ilen.toNat ≤ 7
  | 0, _, _, _, _, _, h => by cases h
  | fuel + 1, last, rc, p, p', r, h => by
    unfold compLoopW at h
    obtain ⟨q, p1, h0, h⟩ := wbind_ok h
    cases h0
    split at h
    · obtain ⟨_, _, _, h⟩ := wbind_ok h
      obtain ⟨_, _, _, h⟩ := wbind_ok h
      obtain ⟨_, _, _, h⟩ := wbind_ok h
      obtain ⟨_, _, _, h⟩ := wbind_ok h
      obtain ⟨_, _, _, h⟩ := wbind_ok h
      exact compLoopW_rest fuel _ _ h
    · rename_i hn
      cases h
      rw [gt_iff_lt, wlt] at hn
      change ¬ 7 < _ at hn
      omega

theorem rel_compPad (total : BitVec 64) (ht : total.toNat = b0.length) {w : WriterW} (hw : w.Inv b0) : WRel b0 w (compPadW total) (compPad b0.length) := by
  suffices h : RelAt WriterW.nat (fun _ => True) w (compPadW total) (compPad b0.length) by
    refine ⟨h.eq, fun a w' he => ?_⟩
    have := h.eq
    rw [he] at this
    exact (compPad_tail hw this.symm).1
  have hlen := hw.len
  have hpart := hw.part
  have h64 := w.olen.isLt
  have htl := total.isLt
  unfold compPadW compPad
  have hif : ∀ q : WriterW, (q = if w.bit ≠ 0#8 then { w with out := w.out + 1, olen := w.olen - 1#64, bit := 0#8 } else w) →
      q.nat = (if w.nat.bit ≠ 0 then { w.nat with out := w.nat.out + 1, olen := w.nat.olen - 1, bit := 0 } else w.nat) ∧ q.olen.toNat ≤ b0.length := by
    intro q hq
    have hb : w.bit ≠ 0#8 ↔ w.nat.bit ≠ 0 := by
      rw [Ne, Ne, ← BitVec.toNat_inj]; exact Iff.rfl
    by_cases h : w.nat.bit ≠ 0
    · have h1 := hpart h
      have hs : (w.olen - 1#64).toNat = w.nat.olen - 1 := by
        rw [BitVec.toNat_sub]
        change (2 ^ 64 - 1 + w.olen.toNat) % 2 ^ 64 = w.olen.toNat - 1
        change 1 ≤ w.olen.toNat at h1
        omega
      rw [if_pos (hb.2 h)] at hq
      rw [if_pos h, hq]
      constructor
      · unfold WriterW.nat at *
        simp only [hs]
        rfl
      · rw [hs]; omega
    · rw [if_neg (fun hc => h (hb.1 hc))] at hq
      rw [if_neg h, hq]
      exact ⟨rfl, by change w.out + w.olen.toNat = _ at hlen; omega⟩
  apply RelV.toRelAt
  refine .bind (Inv' := fun q : WriterW => q.olen.toNat ≤ b0.length) (.modify (hif _ rfl).1 (hif _ rfl).2) fun _ q _ hq => .get ?_
  have hsub : (total - q.olen).toNat = b0.length - q.nat.olen := by
    rw [BitVec.toNat_sub, ht]
    change _ = b0.length - q.olen.toNat
    omega
  have hpad : ((8#64 - (total - q.olen) % 8#64) % 8#64).toNat = (8 - (b0.length - q.nat.olen) % 8) % 8 := by
    rw [BitVec.toNat_umod, BitVec.toNat_sub, BitVec.toNat_umod, hsub]
    change (2 ^ 64 - (b0.length - q.nat.olen) % 8 + 8) % 2 ^ 64 % 8 = _
    omega
  dsimp only
  rw [← hpad]
  generalize (8#64 - (total - q.olen) % 8#64) % 8#64 = pad
  apply RelV.ofRelAt
  refine .ite (by rw [Ne, Ne, ← BitVec.toNat_inj]; exact Iff.rfl) (fun _ => .ite (by rw [gt_iff_lt, wlt]; exact Iff.rfl) (fun _ => .fail _) fun hr => ?_) fun _ => .pure trivial _
  rw [gt_iff_lt, wlt] at hr
  refine .bind (.update ?_ fun _ _ => trivial) fun _ q1 hu _ => .modify ?_ trivial
  · rw [Option.map_map]
    rfl
  · have h3 : q1.olen = q.olen := by
      unfold M.update at hu
      split at hu
      · rename_i q' hq'
        simp only [Option.map_eq_some_iff] at hq'
        obtain ⟨b, _, hb⟩ := hq'
        cases hu
        rw [← hb]
      · cases hu
    have hs : (q1.olen - pad).toNat = q1.nat.olen - pad.toNat := by
      rw [BitVec.toNat_sub, h3]
      change _ = q1.olen.toNat - _
      rw [h3]
      have := q.olen.isLt
      omega
    unfold WriterW.nat at *
    simp only [hs]

theorem rel_compBody (addr fuel : Nat) (inp : List Byte) (hi : inp.length < 2 ^ 63) (hb : b0.length < 2 ^ 63) {p : CompW} (hp : p.InvL b0)
    (hil : p.ilen.toNat = inp.length) :
    RelV CompW.nat (CompW.InvL b0) BitVec.toNat p (compBodyW e addr fuel inp (BitVec.ofNat 64 inp.length) (BitVec.ofNat 64 b0.length))
      (compBody e addr fuel inp b0.length) := by
  have hn : (BitVec.ofNat 64 inp.length).toNat = inp.length := by rw [BitVec.toNat_ofNat]; omega
  have ht : (BitVec.ofNat 64 b0.length).toNat = b0.length := by rw [BitVec.toNat_ofNat]; omega
  -- after the short data template
  have k2 : ∀ p : CompW, p.InvL b0 → RelV CompW.nat (CompW.InvL b0) BitVec.toNat p
      (do
        liftWW (addBitsW e 0x1E#64 5#8)
        let crc ← M.access fun _ => crc32be e addr 0#32 inp (BitVec.ofNat 64 inp.length).toNat
        liftWW (addBitsW e (crc.setWidth 64) 32#8)
        liftWW (compPadW (BitVec.ofNat 64 b0.length))
        let p ← M.get
        if BitVec.ofNat 64 b0.length - p.w.olen > 0xffffffff#64 then M.fail .ENOSPC
        else pure (BitVec.ofNat 64 b0.length - p.w.olen))
      (do
        liftW (addBits e 0x1E#64 5)
        let crc ← M.access fun _ => crc32be e addr 0#32 inp inp.length
        liftW (addBits e (crc.setWidth 64) 32)
        liftW (compPad b0.length)
        let p ← M.get
        if b0.length - p.w.olen > 0xffffffff then M.fail .ENOSPC
        else pure (b0.length - p.w.olen)) := by
    intro p hp
    refine .bind (rel_add b0 e hp.at _ 5#8 5 rfl (by decide)) fun _ p1 _ h1 => .bind (.access h1 (by rw [hn])) fun crc p2 _ h2 =>
      .bind (rel_add b0 e h2 _ 32#8 32 rfl (by decide)) fun _ p3 _ h3 => .bind (rel_liftW h3.ilen (rel_compPad b0 _ ht h3.w)) fun _ p4 _ h4 => .get ?_
    have hl := h4.w.len
    have hs : (BitVec.ofNat 64 b0.length - p4.w.olen).toNat = b0.length - p4.nat.w.olen := by
      rw [BitVec.toNat_sub, ht]
      change p4.w.out + p4.w.olen.toNat = _ at hl
      change _ = b0.length - p4.w.olen.toNat
      omega
    refine .ite ?_ (fun _ => .fail _) fun _ => .pure (show CompW.InvL b0 p4 from h4.w) hs
    rw [gt_iff_lt, wlt, hs]
    exact Iff.rfl
  -- after the main loop
  have k1 : ∀ p : CompW, p.InvL b0 → p.ilen.toNat ≤ 7 → RelV CompW.nat (CompW.InvL b0) BitVec.toNat p
      (do
        let p ← M.get
        if p.ilen > 0#64 then do
          addShortDataW e (p.ilen.setWidth 8)
          M.modify fun p => { p with c := { p.c with pos := p.c.pos + p.ilen.toNat }, ilen := 0#64 }
        else pure ()
        liftWW (addBitsW e 0x1E#64 5#8)
        let crc ← M.access fun _ => crc32be e addr 0#32 inp (BitVec.ofNat 64 inp.length).toNat
        liftWW (addBitsW e (crc.setWidth 64) 32#8)
        liftWW (compPadW (BitVec.ofNat 64 b0.length))
        let p ← M.get
        if BitVec.ofNat 64 b0.length - p.w.olen > 0xffffffff#64 then M.fail .ENOSPC
        else pure (BitVec.ofNat 64 b0.length - p.w.olen))
      (do
        let p ← M.get
        if p.ilen > 0 then do
          addShortData e p.ilen
          M.modify fun p => { p with pos := p.pos + p.ilen, ilen := 0 }
        else pure ()
        liftW (addBits e 0x1E#64 5)
        let crc ← M.access fun _ => crc32be e addr 0#32 inp inp.length
        liftW (addBits e (crc.setWidth 64) 32)
        liftW (compPad b0.length)
        let p ← M.get
        if b0.length - p.w.olen > 0xffffffff then M.fail .ENOSPC
        else pure (b0.length - p.w.olen)) := by
    intro p hp h7
    refine .get ?_
    dsimp only
    refine .ite (by rw [gt_iff_lt, wlt]; exact Iff.rfl) (fun _ => ?_) fun _ => k2 p hp
    have hw : (p.ilen.setWidth 8).toNat = p.nat.ilen := by
      rw [BitVec.toNat_setWidth]
      change _ = p.ilen.toNat
      omega
    have := rel_addShortData b0 e (p.ilen.setWidth 8) hp.at
    rw [hw] at this
    exact .bind this fun _ p1 _ h1 => .bind (.modify rfl (show CompW.InvL b0 _ from h1.w)) fun _ p2 _ h2 => k2 p2 h2
  unfold compBodyW compBody
  dsimp only
  refine .ite ?_ (fun h => k1 p hp ?_) fun _ => ?_
  · rw [wlt, hn]; exact Iff.rfl
  · rw [wlt, hn] at h
    change inp.length < 8 at h
    omega
  · refine .bind (.access hp.at rfl) fun first p1 _ h1 => .bindV (rel_compLoop b0 e fuel (~~~first) 0#8 (show CompW.InvL b0 _ from h1.w)) fun rc p2 hr h2 => ?_
    have h7 := compLoopW_rest e _ _ _ hr
    refine .ite (by rw [Ne, Ne, ← BitVec.toNat_inj]; exact Iff.rfl) (fun _ => ?_) fun _ => k1 p2 h2 h7
    exact .bind (rel_addRepeat b0 e rc h2.at) fun _ p3 _ h3 => k1 p3 h3.w (by rw [h3.ilen]; exact h7)

theorem sw842CompressW_eq (addr : Nat) (j : CompJunk) (inp buf : List Byte) (h : inp.length < 2 ^ 63 ∧ buf.length < 2 ^ 63) :
    sw842CompressW e addr j inp buf = sw842Compress e addr j inp buf := by
  have hn : (compInitW j inp buf).nat = compInit j inp buf := by
    unfold compInitW CompW.nat compInit WriterW.nat
    simp only [BitVec.toNat_ofNat]
    rw [Nat.mod_eq_of_lt (by omega), Nat.mod_eq_of_lt (by omega)]
  have hw : (compInitW j inp buf).InvL buf := by
    have : (compInitW j inp buf).w.nat = ⟨buf, 0, buf.length, 0⟩ := by
      unfold compInitW WriterW.nat
      simp only [BitVec.toNat_ofNat]
      rw [Nat.mod_eq_of_lt (by omega)]
    show WTail buf _
    rw [this]
    exact ⟨rfl, by simp, by show 0 < 8; decide, fun h => absurd rfl h, fun _ _ => Or.inl rfl, fun _ _ => rfl⟩
  have := (rel_compBody buf e addr (inp.length / 8 + 1) inp h.1 h.2 hw (by
    show (BitVec.ofNat 64 inp.length).toNat = _
    rw [BitVec.toNat_ofNat]; omega)).eq
  unfold sw842CompressW sw842Compress sw842CompressF
  rw [hn] at this
  rw [← this]
  cases compBodyW e addr (inp.length / 8 + 1) inp (BitVec.ofNat 64 inp.length) (BitVec.ofNat 64 buf.length) (compInitW j inp buf) <;> rfl

end Lib842
