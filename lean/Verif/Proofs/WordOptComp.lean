import Verif.Model.WordOptComp
import Verif.Proofs.WordCompBody
/-!
# `optsw842_compress` with machine arithmetic does what it does with natural numbers
-/

namespace Lib842

/-- The words as natural numbers -/
def BStreamW.nat (s : BStreamW) : BStream := ⟨s.bits.toNat, s.buffer, s.ptr, s.endw, s.buf⟩

/-- The words as natural numbers -/
def OCompW.nat (p : OCompW) : OComp := { core := { p.core with ilen := p.ilen.toNat }, s := p.s.nat }

/-- The invariant of the pointers -/
structure BStreamW.InvP (s : BStreamW) : Prop where
  ptr : s.ptr ≤ s.endw
  endw : s.endw < 2 ^ 60

/-- The invariant between two calls of functions of the stream -/
structure BStreamW.Inv (s : BStreamW) : Prop where
  ptrs : s.InvP
  bits : s.bits.toNat < 64

abbrev SRelP {α : Type} := @RelAt BStreamW BStream α BStreamW.nat BStreamW.InvP
abbrev SRel {α : Type} := @RelAt BStreamW BStream α BStreamW.nat BStreamW.Inv

theorem relW_writeWord (e : Endian) (v : BitVec 64) {s : BStreamW} (hs : s.InvP) : SRelP s (streamWriteWordW e v) (streamWriteWord e v) := by
  unfold streamWriteWordW streamWriteWord
  refine .get (.ite Iff.rfl (fun _ => .fail _) fun hne => ?_)
  have hup : ∀ s', (store64 e s.buf (8 * s.ptr) (swapBe64 e v)).map (fun b => { s with buf := b }) = some s' → s'.ptr = s.ptr ∧ s'.endw = s.endw := by
    intro s' h
    simp only [Option.map_eq_some_iff] at h
    obtain ⟨b, _, hb⟩ := h
    rw [← hb]
    exact ⟨rfl, rfl⟩
  refine .bind (.update ?_ fun s' h => ⟨by rw [(hup s' h).1, (hup s' h).2]; exact hs.ptr, by rw [(hup s' h).2]; exact hs.endw⟩) fun _ s1 hu _ => .modify rfl ?_
  · rw [Option.map_map]
    rfl
  · have h3 : s1.ptr = s.ptr ∧ s1.endw = s.endw := by
      unfold M.update at hu
      split at hu
      · rename_i q hq
        cases hu
        exact hup _ hq
      · cases hu
    constructor
    · show s1.ptr + 1 ≤ s1.endw
      have := hs.ptr
      omega
    · show s1.endw < _
      have := hs.endw
      omega

theorem writeWordW_bits (e : Endian) (v : BitVec 64) {s s' : BStreamW} {a : Unit} (h : streamWriteWordW e v s = .ok a s') : s'.bits = s.bits := by
  unfold streamWriteWordW at h
  obtain ⟨q, s1, h0, h⟩ := wbind_ok h
  cases h0
  split at h
  · cases h
  · obtain ⟨_, s2, hu, h⟩ := wbind_ok h
    cases h
    unfold M.update at hu
    split at hu
    · rename_i q hq
      simp only [Option.map_eq_some_iff] at hq
      obtain ⟨b, _, hb⟩ := hq
      cases hu
      rw [← hb]
    · cases hu

theorem relW_writeBits (e : Endian) (v : BitVec 64) (n : BitVec 8) (m : Nat) (hm : n.toNat = m) (h1 : 1 ≤ m ∧ m ≤ 64) {s : BStreamW} (hs : s.Inv) :
    SRel s (streamWriteBitsW e v n) (streamWriteBits e v m) := by
  subst hm
  have hbits : ∀ a s', streamWriteBitsW e v n s = .ok a s' → s'.bits.toNat < 64 := by
    intro a s' h
    unfold streamWriteBitsW at h
    obtain ⟨v1, s1, g1, k1⟩ := wbind_ok h
    have := (waccess_ok g1).2
    subst this
    obtain ⟨q, s2, g2, k2⟩ := wbind_ok k1
    cases g2
    obtain ⟨v2, s3, g3, k3⟩ := wbind_ok k2
    have := (waccess_ok g3).2
    subst this
    obtain ⟨_, s4, g4, k4⟩ := wbind_ok k3
    cases g4
    obtain ⟨q, s5, g5, k5⟩ := wbind_ok k4
    cases g5
    have hb := hs.bits
    have hadd : (s3.bits + n).toNat = s3.bits.toNat + n.toNat := by
      rw [BitVec.toNat_add]; omega
    split at k5
    · rename_i hge
      rw [ge_iff_le, wle] at hge
      change 64 ≤ (s3.bits + n).toNat at hge
      obtain ⟨_, s6, g6, k6⟩ := wbind_ok k5
      cases g6
      obtain ⟨q, s7, g7, k7⟩ := wbind_ok k6
      cases g7
      obtain ⟨_, s8, g8, k8⟩ := wbind_ok k7
      have hw := writeWordW_bits e _ g8
      obtain ⟨b, s9, g9, k9⟩ := wbind_ok k8
      have := (waccess_ok g9).2
      subst this
      cases k9
      show s9.bits.toNat < 64
      rw [hw]
      show (s3.bits + n - 64#8).toNat < 64
      rw [BitVec.toNat_sub, hadd]
      show (2 ^ 8 - 64 + (s3.bits.toNat + n.toNat)) % 2 ^ 8 < 64
      omega
    · rename_i hge
      rw [ge_iff_le, wle] at hge
      change ¬ 64 ≤ (s3.bits + n).toNat at hge
      cases k5
      show (s3.bits + n).toNat < 64
      omega
  suffices h : SRelP s (streamWriteBitsW e v n) (streamWriteBits e v n.toNat) from ⟨h.eq, fun a s' he => ⟨h.inv a s' he, hbits a s' he⟩⟩
  unfold streamWriteBitsW streamWriteBits
  refine .bind (.access hs.ptrs rfl) fun v1 s1 _ hs1 => .get (.bind (.access hs1 rfl) fun sh s2 _ hs2 => .bind (.modify ?_ ⟨hs2.ptr, hs2.endw⟩) fun _ s3 _ hs3 => .get ?_)
  · unfold BStreamW.nat
    simp only [BitVec.toNat_add]
  · refine .ite (by rw [ge_iff_le, wle]; exact Iff.rfl) (fun hge => ?_) fun _ => .pure hs3 _
    rw [ge_iff_le, wle] at hge
    change 64 ≤ s3.bits.toNat at hge
    refine .bind (.modify ?_ ⟨hs3.ptr, hs3.endw⟩) fun _ s4 _ hs4 => .get (.bind (relW_writeWord e _ hs4) fun _ s5 _ hs5 => .bind (.access hs5 ?_) fun b s6 _ hs6 => .modify rfl ⟨hs6.ptr, hs6.endw⟩)
    · unfold BStreamW.nat
      have : (s3.bits - 64#8).toNat = s3.bits.toNat - 64 := by
        rw [BitVec.toNat_sub]
        have := s3.bits.isLt
        show (2 ^ 8 - 64 + s3.bits.toNat) % 2 ^ 8 = _
        omega
      simp only [this]
    · have : ((n - 1#8).toNat : Int) = (n.toNat : Int) - 1 := by
        have : (n - 1#8).toNat = n.toNat - 1 := by
          rw [BitVec.toNat_sub]
          show (2 ^ 8 - 1 + n.toNat) % 2 ^ 8 = _
          omega
        rw [this]
        omega
      rw [this]
      rfl

theorem relW_padLoop (e : Endian) : ∀ (fuel : Nat) {s : BStreamW}, s.InvP → SRelP s (streamPadLoopW e fuel) (streamPadLoop e fuel)
  | 0, _, _ => .timeout
  | fuel + 1, s, hs => by
    unfold streamPadLoopW streamPadLoop
    refine .get (.ite (by rw [ge_iff_le, wle]; exact Iff.rfl) (fun hge => ?_) fun _ => .pure hs _)
    rw [ge_iff_le, wle] at hge
    change 64 ≤ s.bits.toNat at hge
    refine .bind (relW_writeWord e _ hs) fun _ s1 hw hs1 => .bind (.modify ?_ ⟨hs1.ptr, hs1.endw⟩) fun _ s2 _ hs2 => relW_padLoop e fuel hs2
    have hb := writeWordW_bits e _ hw
    unfold BStreamW.nat
    have : (s1.bits - 64#8).toNat = s1.bits.toNat - 64 := by
      rw [hb, BitVec.toNat_sub]
      have := s.bits.isLt
      show (2 ^ 8 - 64 + s.bits.toNat) % 2 ^ 8 = _
      omega
    simp only [this]

theorem flush_int : ∀ b : BitVec 8, b.toNat < 64 → (((64#32 - b.setWidth 32).srem 64#32).setWidth 8).toNat = (64 - b.toNat) % 64 := by
  decide +kernel

theorem relW_flush (e : Endian) {s : BStreamW} (hs : s.Inv) : SRelP s (streamFlushW e) (streamFlush e) := by
  unfold streamFlushW streamFlush
  refine .get ?_
  have h := flush_int s.bits hs.bits
  have hn : (64 - s.nat.bits) % 64 = (((64#32 - s.bits.setWidth 32).srem 64#32).setWidth 8).toNat := h.symm
  simp only [hn]
  refine .ite (by rw [Ne, Ne, ← BitVec.toNat_inj]; exact Iff.rfl) (fun _ => ?_) fun _ => .pure hs.ptrs _
  unfold streamPadW streamPad
  refine .bind (.modify ?_ ⟨hs.ptrs.ptr, hs.ptrs.endw⟩) fun _ s1 _ hs1 => relW_padLoop e _ hs1
  unfold BStreamW.nat
  simp only [BitVec.toNat_add]

/-! ## The whole state -/

structure OCompW.InvP (i0 : BitVec 64) (p : OCompW) : Prop where
  s : p.s.InvP
  ilen : p.ilen = i0

structure OCompW.Inv (i0 : BitVec 64) (p : OCompW) : Prop where
  s : p.s.Inv
  ilen : p.ilen = i0

/-- The invariant for any `ilen` -/
def OCompW.InvL (p : OCompW) : Prop := p.s.Inv

theorem OCompW.InvL.at {p : OCompW} (h : p.InvL) : p.Inv p.ilen := ⟨h, rfl⟩

abbrev OCRel {α : Type} (i0 : BitVec 64) := @RelAt OCompW OComp α OCompW.nat (OCompW.Inv i0)

theorem relW_liftS {α : Type} {x : M BStreamW α} {y : M BStream α} {i0 : BitVec 64} {p : OCompW} (hi : p.ilen = i0) (h : SRel p.s x y) :
    OCRel i0 p (liftSW x) (liftS y) := by
  constructor
  · unfold liftSW liftS
    have : p.nat.s = p.s.nat := rfl
    rw [this, ← h.eq]
    cases x p.s <;> rfl
  · intro a p' he
    unfold liftSW at he
    cases hr : x p.s with
    | ok v w => rw [hr] at he; cases he; exact ⟨h.inv _ _ hr, hi⟩
    | err _ _ => rw [hr] at he; cases he
    | ub => rw [hr] at he; cases he
    | timeout => rw [hr] at he; cases he

theorem relW_liftSP {α : Type} {x : M BStreamW α} {y : M BStream α} {i0 : BitVec 64} {p : OCompW} (hi : p.ilen = i0) (h : SRelP p.s x y) :
    RelAt OCompW.nat (OCompW.InvP i0) p (liftSW x) (liftS y) := by
  constructor
  · unfold liftSW liftS
    have : p.nat.s = p.s.nat := rfl
    rw [this, ← h.eq]
    cases x p.s <;> rfl
  · intro a p' he
    unfold liftSW at he
    cases hr : x p.s with
    | ok v w => rw [hr] at he; cases he; exact ⟨h.inv _ _ hr, hi⟩
    | err _ _ => rw [hr] at he; cases he
    | ub => rw [hr] at he; cases he
    | timeout => rw [hr] at he; cases he

/-- `f` leaves `ilen` alone -/
def KeepsI (f : OCore → Option OCore) : Prop := ∀ c c', f c = some c' → c'.ilen = c.ilen

theorem relW_liftO {f : OCore → Option OCore} (hf : KeepsI f) {i0 : BitVec 64} {p : OCompW} (hp : p.Inv i0) : OCRel i0 p (liftOW f) (liftC f) := by
  refine .update ?_ ?_
  · show Option.map _ (Option.map _ (f { p.core with ilen := p.ilen.toNat })) = Option.map _ (f { p.core with ilen := p.ilen.toNat })
    cases h : f { p.core with ilen := p.ilen.toNat } with
    | none => rfl
    | some c =>
      have := hf _ _ h
      simp only [Option.map_some, Option.some.injEq]
      unfold OCompW.nat
      simp only at this ⊢
      rw [← this]
  · intro p' h
    simp only [Option.map_eq_some_iff] at h
    obtain ⟨c, _, hc⟩ := h
    rw [← hc]
    exact ⟨hp.s, hp.ilen⟩

theorem KeepsI.bind {f g : OCore → Option OCore} (hf : KeepsI f) (hg : KeepsI g) : KeepsI (fun c => f c >>= g) := by
  intro c c' h
  change (f c >>= g) = some c' at h
  cases hfc : f c with
  | none => rw [hfc] at h; cases h
  | some c1 =>
    rw [hfc] at h
    exact (hg c1 c' h).trans (hf c c1 hfc)

theorem keeps_findSlot (k : Nat) : KeepsI (findSlot k) := by
  intro c c' h
  unfold findSlot at h
  split at h
  · cases h; rfl
  · cases h

theorem keeps_findIndex : KeepsI findIndex :=
  .bind (keeps_findSlot 0) (.bind (keeps_findSlot 1) (.bind (keeps_findSlot 2) (.bind (keeps_findSlot 3) (.bind (keeps_findSlot 4)
    (.bind (keeps_findSlot 5) (keeps_findSlot 6))))))

theorem obind_some {α β : Type} {o : Option α} {f : α → Option β} {b : β} (h : (o >>= f) = some b) : ∃ a, o = some a ∧ f a = some b := by
  cases o with
  | none => cases h
  | some a => exact ⟨a, rfl, h⟩

theorem keeps_getNextData (e : Endian) : KeepsI (ogetNextData e) := by
  intro c c' h
  unfold ogetNextData at h
  iterate 7 obtain ⟨_, _, h⟩ := obind_some h
  cases h
  rfl

theorem keeps_updateHashtables : KeepsI oupdateHashtables := by
  intro c c' h
  unfold oupdateHashtables at h
  iterate 14 obtain ⟨_, _, h⟩ := obind_some h
  cases h
  rfl

theorem relW_write (e : Endian) (v : BitVec 64) (n : BitVec 8) (m : Nat) (hm : n.toNat = m) (h1 : 1 ≤ m ∧ m ≤ 64) {i0 : BitVec 64} {p : OCompW} (hp : p.Inv i0) :
    OCRel i0 p (liftSW (streamWriteBitsW e v n)) (liftS (streamWriteBits e v m)) :=
  relW_liftS hp.ilen (relW_writeBits e v n m hm h1 hp.s)

theorem orShifted_ilen (e : Endian) (code : Nat) (c : OCore) (i : Nat) : ∀ fs, orShifted e code { c with ilen := i } fs = orShifted e code c fs
  | [] => rfl
  | (src, sh) :: rest => by
    unfold orShifted
    rw [orShifted_ilen e code c i rest]
    cases src <;> rfl

theorem optRows_width : ∀ r ∈ optRows, 1 ≤ r.1 ∧ r.1 ≤ 64 := by decide +kernel

theorem relW_addTemplate (e : Endian) (code : Nat) {i0 : BitVec 64} {p : OCompW} (hp : p.Inv i0) : OCRel i0 p (oaddTemplateW e code) (oaddTemplate e code) := by
  unfold oaddTemplateW oaddTemplate
  refine .get (.ite Iff.rfl (fun _ => .bind (relW_write e _ 5#8 5 rfl (by decide) hp) fun _ _ _ h1 => relW_write e _ 64#8 64 rfl (by decide) h1) fun _ => ?_)
  cases hr : optRows[code - 1]? with
  | none => exact .pure hp _
  | some r =>
    obtain ⟨n, fields⟩ := r
    have hw := optRows_width _ (List.mem_of_getElem? hr)
    simp only at hw
    refine .bind (.access hp (orShifted_ilen e code _ _ fields).symm) fun _ _ _ h1 => relW_write e _ _ n ?_ hw h1
    rw [BitVec.toNat_ofNat]
    omega

theorem relW_addRepeat (e : Endian) (r : BitVec 8) {i0 : BitVec 64} {p : OCompW} (hp : p.Inv i0) :
    OCRel i0 p (liftSW (oaddRepeatW e r)) (liftS (oaddRepeat e r.toNat)) := by
  unfold oaddRepeatW oaddRepeat
  have hd : BitVec.ofNat 64 ((r.toNat + 255) % 2 ^ 8) = (r - 1#8).setWidth 64 := by
    apply BitVec.eq_of_toNat_eq
    rw [BitVec.toNat_ofNat, BitVec.toNat_setWidth, BitVec.toNat_sub]
    show (r.toNat + 255) % 2 ^ 8 % 2 ^ 64 = (2 ^ 8 - 1 + r.toNat) % 2 ^ 8 % 2 ^ 64
    omega
  rw [hd]
  exact relW_write e _ 11#8 11 rfl (by decide) hp

theorem relW_processNext (e : Endian) {i0 : BitVec 64} {p : OCompW} (hp : p.Inv i0) : OCRel i0 p (oprocessNextW e) (oprocessNext e) := by
  unfold oprocessNextW oprocessNext
  exact .bind (relW_liftO (fun _ _ h => by cases h; rfl) hp) fun _ _ _ h1 => .bind (relW_liftO (fun _ _ h => by cases h; rfl) h1) fun _ _ _ h2 =>
    .bind (relW_liftO keeps_findIndex h2) fun _ _ _ h3 => .get (.bind (.access h3 rfl) fun _ _ _ h4 => relW_addTemplate e _ h4)

theorem relW_compStep (e : Endian) (next last : BitVec 64) (rc : BitVec 8) {i0 : BitVec 64} {p : OCompW} (hp : p.Inv i0) :
    RelV OCompW.nat (OCompW.Inv i0) BitVec.toNat p (ocompStepW e next last rc) (ocompStep (.std e) e next last rc.toNat) := by
  unfold ocompStepW ocompStep
  dsimp only
  have hrc : (if next = last then (rc.toNat + 1) % 2 ^ 8 else rc.toNat) = (if next = last then rc + 1#8 else rc).toNat := by
    split
    · rw [BitVec.toNat_add]; rfl
    · rfl
  rw [hrc]
  generalize (if next = last then rc + 1#8 else rc) = r
  have h0 : r ≠ 0#8 ↔ r.toNat ≠ 0 := by
    rw [Ne, Ne, ← BitVec.toNat_inj]; exact Iff.rfl
  refine .ite (by rw [wle]; exact Iff.rfl) (fun _ => .pure hp rfl) fun _ => .ite h0 (fun _ => ?_) fun _ => ?_
  · refine .bind (relW_addRepeat e r hp) fun _ p1 _ h1 => .ite Iff.rfl (fun _ => .pure h1 rfl) fun _ => ?_
    exact .ite Iff.rfl (fun _ => .bind (relW_write e _ 5#8 5 rfl (by decide) h1) fun _ _ _ h2 => .pure h2 rfl) fun _ =>
      .bind (relW_processNext e h1) fun _ _ _ h2 => .pure h2 rfl
  · exact .ite Iff.rfl (fun _ => .bind (relW_write e _ 5#8 5 rfl (by decide) hp) fun _ _ _ h2 => .pure h2 rfl) fun _ =>
      .bind (relW_processNext e hp) fun _ _ _ h2 => .pure h2 rfl

theorem relW_compLoop (e : Endian) : ∀ (fuel : Nat) (last : BitVec 64) (rc : BitVec 8) {p : OCompW}, p.InvL →
    RelV OCompW.nat OCompW.InvL BitVec.toNat p (ocompLoopW e fuel last rc) (ocompLoop (.std e) e fuel last rc.toNat)
  | 0, _, _, _, _ => .timeout
  | fuel + 1, last, rc, p, hp => by
    unfold ocompLoopW ocompLoop
    refine .get (.ite (by rw [gt_iff_lt, wlt]; exact Iff.rfl) (fun hi => ?_) fun _ => .pure hp rfl)
    rw [gt_iff_lt, wlt] at hi
    refine .bind (.access hp.at rfl) fun next p1 _ h1 => .bind (relW_liftO (keeps_getNextData e) h1) fun _ p2 _ h2 =>
      .bindV (relW_compStep e next last rc h2) fun rc' p3 _ h3 => .bind (relW_liftO keeps_updateHashtables h3) fun _ p4 _ h4 => ?_
    have hs : (p4.ilen - 8#64).toNat = p4.nat.core.ilen - 8 := by
      rw [h4.ilen, BitVec.toNat_sub]
      show _ = p4.ilen.toNat - 8
      rw [h4.ilen]
      have := p.ilen.isLt
      show (2 ^ 64 - 8 + p.ilen.toNat) % 2 ^ 64 = _
      change 7 < p.ilen.toNat at hi
      omega
    refine .bind (Inv' := OCompW.InvL) ⟨?_, ?_⟩ fun _ p5 _ h5 => relW_compLoop e fuel next rc' h5
    · show Outcome.ok _ _ = Outcome.ok _ _
      congr 1
      unfold OCompW.nat at *
      simp only [hs]
    · intro a p' he
      cases he
      exact h4.s

theorem relW_compBody (e : Endian) (addr fuel : Nat) (inp : List Byte) (hi : inp.length < 2 ^ 63) {p : OCompW} (hp : p.InvL) :
    RelV OCompW.nat (fun _ => True) BitVec.toNat p (ocompBodyW e addr fuel inp (BitVec.ofNat 64 inp.length)) (ocompBody (.std e) e addr fuel inp) := by
  have hn : (BitVec.ofNat 64 inp.length).toNat = inp.length := by rw [BitVec.toNat_ofNat]; omega
  unfold ocompBodyW ocompBody
  refine .get (.bind (.access hp.at rfl) fun first p1 _ h1 => .bindV (relW_compLoop e fuel (~~~first) 0#8 (show p1.InvL from h1.s)) fun rc p2 _ h2 => ?_)
  have fin : ∀ {i0 : BitVec 64} {p : OCompW}, p.Inv i0 → RelV OCompW.nat (fun _ => True) BitVec.toNat p
      (do
        liftSW (streamWriteBitsW e 0x1E#64 5#8)
        let crc ← M.access fun _ => crc32be e addr 0#32 inp (BitVec.ofNat 64 inp.length).toNat
        liftSW (streamWriteBitsW e (crc.setWidth 64) 32#8)
        liftSW (streamFlushW e)
        let p ← M.get
        pure (8#64 * BitVec.ofNat 64 p.s.ptr))
      (do
        liftS (streamWriteBits e 0x1E#64 5)
        let crc ← M.access fun _ => crc32be e addr 0#32 inp inp.length
        liftS (streamWriteBits e (crc.setWidth 64) 32)
        liftS (streamFlush e)
        let p ← M.get
        pure (8 * p.s.ptr)) := by
    intro i0 p hp
    refine .bind (relW_write e _ 5#8 5 rfl (by decide) hp) fun _ q1 _ g1 => .bind (.access g1 (by rw [hn])) fun crc q2 _ g2 =>
      .bind (relW_write e _ 32#8 32 rfl (by decide) g2) fun _ q3 _ g3 => .bind (relW_liftSP g3.ilen (relW_flush e g3.s)) fun _ q4 _ g4 => .get (.pure trivial ?_)
    have h1 := g4.s.ptr
    have h2 := g4.s.endw
    rw [BitVec.toNat_mul, BitVec.toNat_ofNat, BitVec.toNat_ofNat]
    show _ = 8 * q4.s.ptr
    omega
  dsimp only
  exact .ite (by rw [Ne, Ne, ← BitVec.toNat_inj]; exact Iff.rfl) (fun _ => .bind (relW_addRepeat e rc h2.at) fun _ p3 _ h3 => fin h3) fun _ => fin h2.at

theorem optsw842CompressW_eq (e : Endian) (ain aout : Nat) (j : OptJunk) (jsw : CompJunk) (inp buf : List Byte) (h : inp.length < 2 ^ 63 ∧ buf.length < 2 ^ 63) :
    optsw842CompressW e ain aout j jsw inp buf = optsw842Compress e ain aout j jsw inp buf := by
  have hi : (BitVec.ofNat 64 inp.length).toNat = inp.length := by rw [BitVec.toNat_ofNat]; omega
  have hb : (BitVec.ofNat 64 buf.length).toNat = buf.length := by rw [BitVec.toNat_ofNat]; omega
  have he : (BitVec.ofNat 64 buf.length / 8#64).toNat = buf.length / 8 := by
    rw [BitVec.toNat_udiv, hb]; rfl
  have h8 : BitVec.ofNat 64 inp.length % 8#64 ≠ 0#64 ↔ inp.length % 8 ≠ 0 := by
    rw [Ne, Ne, ← BitVec.toNat_inj, BitVec.toNat_umod, hi]; exact Iff.rfl
  have hn : (ocompInitW j inp buf).nat = ocompInit j inp buf := by
    unfold ocompInitW OCompW.nat BStreamW.nat
    simp only [hi, he]
    rfl
  have hw : (ocompInitW j inp buf).InvL := by
    refine ⟨⟨Nat.zero_le _, ?_⟩, by show (0#8).toNat < 64; decide⟩
    show (BitVec.ofNat 64 buf.length / 8#64).toNat < 2 ^ 60
    rw [he]
    omega
  have hr := (relW_compBody e ain (inp.length / 8 + 1) inp h.1 hw).eq
  rw [hn] at hr
  unfold optsw842CompressW optsw842Compress optsw842CompressF
  by_cases hm : inp.length % 8 ≠ 0
  · rw [if_pos (h8.2 hm), if_pos hm]
  · rw [if_neg (fun hc => hm (h8.1 hc)), if_neg hm]
    split
    · exact sw842CompressW_eq e ain jsw inp buf h
    · rw [← hr]
      cases ocompBodyW e ain (inp.length / 8 + 1) inp (BitVec.ofNat 64 inp.length) (ocompInitW j inp buf) <;> rfl

end Lib842
