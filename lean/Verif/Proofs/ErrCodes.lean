import Verif.Proofs.Expansion
import Verif.Proofs.OptDecomp
import Verif.Proofs.Ocl
import Verif.Proofs.SwCall
/-!
# When the decompressors report a lack of space

`Spends k x`: the computation reports `-ENOSPC` only if there is room for less than `k` bytes, takes at most `k` bytes of
room, and reports no other errors than those of `Code`.
-/

namespace Lib842
open Spec

namespace Codes

/-- Error codes of `sw842_decompress` -/
def Code (er : Errno) : Prop := er = .EINVAL ∨ er = .EOVERFLOW ∨ er = .ENOSPC

def Spends {α : Type} (k : Nat) (x : M Decomp α) : Prop :=
  ∀ p, (∀ er p', x p = .err er p' → Code er ∧ (er = .ENOSPC → p.olen < k)) ∧ ∀ a p', x p = .ok a p' → p.olen ≤ p'.olen + k

theorem Spends.pure {α : Type} (a : α) : Spends 0 (Pure.pure a : M Decomp α) := by
  intro p
  refine ⟨fun er p' h => (by cases h), fun a p' h => ?_⟩
  cases h; omega

theorem Spends.einval {α : Type} {k : Nat} : Spends k (M.fail .EINVAL : M Decomp α) := by
  intro p
  refine ⟨fun er p' h => ?_, fun a p' h => by cases h⟩
  cases h
  exact ⟨.inl rfl, by simp⟩

theorem Spends.access_bind {α β : Type} {k : Nat} {f : Decomp → Option α} {g : α → M Decomp β}
    (h : ∀ p a, f p = some a → Spends k (g a)) : Spends k (M.access f >>= g) := by
  intro p
  rw [M.bind_def]
  unfold M.access
  cases hf : f p with
  | none => exact ⟨fun er p' h => (by cases h), fun a p' h => (by cases h)⟩
  | some a => exact h p a hf p

theorem Spends.update {k : Nat} {f : Decomp → Option Decomp} (h : ∀ p p', f p = some p' → p.olen ≤ p'.olen + k) :
    Spends k (M.update f) := by
  intro p
  unfold M.update
  cases hf : f p with
  | none => exact ⟨fun er p' h => (by cases h), fun a p' h => (by cases h)⟩
  | some a =>
    refine ⟨fun er p' h => (by cases h), fun b p' hb => ?_⟩
    cases hb
    exact h p a hf

theorem Spends.access {α : Type} (f : Decomp → Option α) : Spends 0 (M.access f) := by
  intro p
  unfold M.access
  cases f p with
  | none => exact ⟨fun er p' h => (by cases h), fun a p' h => by cases h⟩
  | some a => exact ⟨fun er p' h => (by cases h), fun a p' h => by cases h; omega⟩

theorem Spends.get : Spends 0 M.get := by
  intro p
  exact ⟨fun er p' h => (by cases h), fun a p' h => (by cases h; omega)⟩

theorem Spends.mono {α : Type} {k k' : Nat} {x : M Decomp α} (h : Spends k x) (hk : k ≤ k') : Spends k' x := by
  intro p
  refine ⟨fun er p' hx => ?_, fun a p' hx => ?_⟩
  · have := (h p).1 er p' hx
    exact ⟨this.1, fun h => by have := this.2 h; omega⟩
  · have := (h p).2 a p' hx
    omega

theorem Spends.bind {α β : Type} {k k' : Nat} {x : M Decomp α} {f : α → M Decomp β} (hx : Spends k x)
    (hf : ∀ a, Spends k' (f a)) : Spends (k + k') (x >>= f) := by
  intro p
  have h1 := hx p
  rw [M.bind_def]
  cases hr : x p with
  | ok a p1 =>
    have h2 := hf a p1
    have h3 := h1.2 a p1 hr
    refine ⟨fun er p' h => ?_, fun b p' h => ?_⟩
    · have := h2.1 er p' h
      exact ⟨this.1, fun h => by have := this.2 h; omega⟩
    · have := h2.2 b p' h
      omega
  | err er p1 =>
    refine ⟨fun er' p' h => ?_, fun b p' h => by cases h⟩
    cases h
    have := h1.1 er p1 hr
    exact ⟨this.1, fun h => by have := this.2 h; omega⟩
  | ub => exact ⟨fun er p' h => (by cases h), fun a p' h => by cases h⟩
  | timeout => exact ⟨fun er p' h => (by cases h), fun a p' h => by cases h⟩

theorem Spends.bind0 {α β : Type} {k : Nat} {x : M Decomp α} {f : α → M Decomp β} (hx : Spends 0 x)
    (hf : ∀ a, Spends k (f a)) : Spends k (x >>= f) := (hx.bind hf).mono (by omega)

theorem Spends.ite {α : Type} {k : Nat} {c : Prop} [Decidable c] {x y : M Decomp α} (hx : Spends k x) (hy : Spends k y) :
    Spends k (if c then x else y) := by
  split
  · exact hx
  · exact hy

theorem spends_split {rec : Nat → M Decomp (BitVec 64)} (h : ∀ n, Spends 0 (rec n)) (n s : Nat) :
    Spends 0 (splitNextBits rec n s) := by
  unfold splitNextBits
  exact .ite .einval (.bind0 (h _) fun _ => .bind0 (h _) fun _ => .pure _)

theorem spends_nextBitsF (e : Endian) (fuel n : Nat) : Spends 0 (nextBitsF e fuel n) := by
  induction fuel generalizing n with
  | zero =>
    intro p
    exact ⟨fun er p' h => (by cases h), fun a p' h => (by cases h)⟩
  | succ fuel ih =>
    unfold nextBitsF
    refine .bind0 .get fun p => .ite .einval (.ite (spends_split ih _ _) (.ite (spends_split ih _ _)
      (.ite (spends_split ih _ _) (.ite ?_ (.bind0 (.access _) fun d => .bind0 ?_ fun _ => .pure _)))))
    · intro p
      refine ⟨fun er p' h => ?_, fun a p' h => by cases h⟩
      cases h
      exact ⟨.inr (.inl rfl), by simp⟩
    · intro p
      refine ⟨fun er p' h => (by cases h), fun a p' h => ?_⟩
      cases h
      simp only
      split <;> simp

theorem spends_nextBits (e : Endian) (n : Nat) : Spends 0 (nextBits e n) := spends_nextBitsF _ _ _

theorem length_readBytes {m bs : List Byte} {i k : Nat} (h : readBytes m i k = some bs) : bs.length = k := by
  by_cases hk : i + k ≤ m.length
  · rw [readBytes_ok hk] at h; cases h
    simp; omega
  · rw [readBytes_none hk] at h; cases h

theorem spends_emit (bs : List Byte) : Spends bs.length (emit bs) := by
  unfold emit
  refine .bind0 ?_ fun _ => ?_
  · refine Spends.update fun p p' h => ?_
    rw [Option.map_eq_some_iff] at h
    obtain ⟨b, -, rfl⟩ := h
    simp
  · intro p
    refine ⟨fun er p' h => (by cases h), fun a p' h => ?_⟩
    cases h
    simp only
    omega

/-- A check of the room before the bytes are written -/
theorem Spends.check {α : Type} {n : Nat} {x : M Decomp α} (hx : Spends n x) :
    Spends n (do
      let p ← M.get
      if n > p.olen then M.fail .ENOSPC else x) := by
  intro p
  rw [M.get_bind_apply]
  by_cases h : n > p.olen
  · rw [if_pos h]
    refine ⟨fun er p' h' => ?_, fun a p' h => by cases h⟩
    cases h'
    exact ⟨.inr (.inr rfl), fun _ => h⟩
  · rw [if_neg h]
    exact hx p

theorem spends_doData (e : Endian) (n : Nat) : Spends n (doData e n) := by
  unfold doData
  refine .check (.bind0 (spends_nextBits _ _) fun v => ?_)
  by_cases h2 : n = 2
  · subst h2; rw [if_pos rfl]; exact (spends_emit _).mono (by simp [length_wordBytes16])
  rw [if_neg h2]
  by_cases h4 : n = 4
  · subst h4; rw [if_pos rfl]; exact (spends_emit _).mono (by simp [length_wordBytes32])
  rw [if_neg h4]
  by_cases h8 : n = 8
  · subst h8; rw [if_pos rfl]; exact (spends_emit _).mono (by simp [length_wordBytes64])
  rw [if_neg h8]
  exact .einval

theorem spends_doIndexN (e : Endian) (size bits fsize : Nat) : Spends size (doIndexN e size bits fsize) := by
  unfold doIndexN
  refine .bind0 .get fun p => .bind0 (spends_nextBits _ _) fun i => ?_
  dsimp only
  refine .ite .einval (.check (.access_bind fun p bs hr => ?_))
  have := spends_emit bs
  rwa [length_readBytes hr] at this

theorem spends_doIndex (e : Endian) (n : Nat) : Spends n (doIndex e n) := by
  unfold doIndex
  by_cases h2 : n = 2
  · subst h2; rw [if_pos rfl]; exact spends_doIndexN _ _ _ _
  rw [if_neg h2]
  by_cases h4 : n = 4
  · subst h4; rw [if_pos rfl]; exact spends_doIndexN _ _ _ _
  rw [if_neg h4]
  by_cases h8 : n = 8
  · subst h8; rw [if_pos rfl]; exact spends_doIndexN _ _ _ _
  rw [if_neg h8]
  exact .einval

theorem spends_doActions (e : Endian) (ops : List Nat) : Spends (ops.map (· &&& 0x0f)).sum (doActions e ops) := by
  induction ops with
  | nil => exact .pure _
  | cons op ops ih =>
    unfold doActions
    rw [List.map_cons, List.sum_cons]
    dsimp only
    split
    · exact (spends_doData e _).bind fun _ => ih
    split
    · exact (spends_doIndex e _).bind fun _ => ih
    split
    · exact ((Spends.pure ()).mono (Nat.zero_le _)).bind fun _ => ih
    · exact Spends.einval.bind fun _ => ih

theorem spends_doOp (e : Endian) (o : Nat) : Spends 8 (doOp e o) := by
  unfold doOp
  refine .ite .einval (.access_bind fun p row hr => ?_)
  have hm : ∀ row ∈ decompOps, (row.map (· &&& 0x0f)).sum = 8 := by decide
  have := spends_doActions e row
  rwa [hm row (List.mem_of_getElem? hr)] at this

theorem spends_doRepeat (n : Nat) : Spends (n * 8) (doRepeat n) := by
  induction n with
  | zero => exact .pure _
  | succ n ih =>
    unfold doRepeat
    rw [show (n + 1) * 8 = 8 + n * 8 by omega]
    refine .access_bind fun p bs hr => ?_
    split at hr
    · cases hr
    · have := (spends_emit bs).bind fun _ => ih
      rwa [length_readBytes hr] at this

theorem spends_doShort (e : Endian) (n : Nat) : Spends n (doShort e n) := by
  induction n with
  | zero => exact .pure _
  | succ n ih =>
    unfold doShort
    rw [Nat.add_comm]
    exact .bind0 (spends_nextBits _ _) fun v => (spends_emit [v.setWidth 8]).bind fun _ => ih

/-- Errors of one op -/
theorem decompOp_err (e : Endian) {op : Nat} {p p' : Decomp} {er : Errno} (hp : p.DInv) (h : decompOp e op p = .err er p') :
    Code er ∧ (er = .ENOSPC → p.olen < 8 ∨ (p.olen < 512 ∧ 6 ≤ p.rest.length)) := by
  unfold decompOp at h
  by_cases h1b : op = 0x1B
  · rw [if_pos h1b] at h
    rcases nextBits_step e (n := 6) (by omega) (by omega) hp with
      ⟨v, p1, h1, hi1, hl1, hv, hr, ho1, hol, hout, hbuf⟩ | ⟨er', p1, h1, hl⟩
    · rw [M.bind_ok h1, M.get_bind_apply] at h
      have h6 : 6 ≤ p.rest.length := by rw [hr]; simp
      by_cases hz : p1.out = 0
      · rw [if_pos hz] at h; cases h; exact ⟨.inl rfl, by simp⟩
      rw [if_neg hz] at h
      by_cases hs : (v.toNat + 1) * 8 > p1.olen
      · rw [if_pos hs] at h; cases h
        exact ⟨.inr (.inr rfl), fun _ => .inr ⟨by omega, h6⟩⟩
      · rw [if_neg hs] at h
        have := (spends_doRepeat (v.toNat + 1) p1).1 er p' h
        exact ⟨this.1, fun h => .inr ⟨by have := this.2 h; omega, h6⟩⟩
    · have := (spends_nextBits e 6 p).1 er' p1 h1
      rw [M.bind_err h1] at h
      cases h
      exact ⟨this.1, fun h => by have := this.2 h; omega⟩
  rw [if_neg h1b] at h
  by_cases h1c : op = 0x1C
  · rw [if_pos h1c] at h
    have := (Spends.check (n := 8) (spends_emit (List.replicate 8 0#8)) p).1 er p' h
    exact ⟨this.1, fun h => .inl (this.2 h)⟩
  rw [if_neg h1c] at h
  by_cases h1d : op = 0x1D
  · rw [if_pos h1d] at h
    have hs : Spends 8 (do
        let bytes ← nextBits e 3
        if bytes.toNat = 0 ∨ bytes.toNat > 7 then M.fail .EINVAL
        else do
          let p ← M.get
          if bytes.toNat > p.olen then M.fail .ENOSPC
          else doShort e bytes.toNat) := by
      refine .bind0 (spends_nextBits _ _) fun v => ?_
      split
      · exact .einval
      · exact (Spends.check (spends_doShort e v.toNat)).mono (by omega)
    have := (hs p).1 er p' h
    exact ⟨this.1, fun h => .inl (this.2 h)⟩
  rw [if_neg h1d] at h
  have := (spends_doOp e op p).1 er p' h
  exact ⟨this.1, fun h => .inl (this.2 h)⟩

theorem decompLoop_err (e : Endian) (fuel : Nat) {p p' : Decomp} {er : Errno} (hp : p.DInv)
    (h : decompLoop e fuel p = .err er p') :
    Code er ∧ (er = .ENOSPC → 11 * p.buf.length < 11 * p.outp.length + 512 * p.rest.length) := by
  induction fuel generalizing p with
  | zero => cases h
  | succ fuel ih =>
    rw [decompLoop] at h
    rcases nextBits_step e (n := 5) (by omega) (by omega) hp with
      ⟨v, p1, h1, hi1, hl1, hv, hr, ho1, hol, hout, hbuf⟩ | ⟨er', p1, h1, hl⟩
    · rw [M.bind_ok h1] at h
      by_cases hend : v.toNat = 0x1E
      · rw [if_pos hend] at h; cases h
      rw [if_neg hend] at h
      have hrl : p.rest.length = 5 + p1.rest.length := by rw [hr]; simp
      have hoo := hp.o
      have hlo := hp.length_outp
      rcases decompOp_step e hv hend hi1 with (⟨_, p2, h2, hi2, hl2, op, hval, hb, hst⟩ | ⟨er2, p2, h2, hl⟩) | ⟨hub, -⟩
      · rw [M.bind_ok h2] at h
        have hx := (op_expand hval hst).1
        have hbl := congrArg List.length hb
        rw [List.length_append, List.length_append, length_bitsOf] at hbl
        have := ih hi2 h
        refine ⟨this.1, fun h => ?_⟩
        have := this.2 h
        rw [hl2, hl1] at this
        rw [ho1] at hx
        omega
      · have := decompOp_err e hi1 h2
        rw [M.bind_err h2] at h
        cases h
        refine ⟨this.1, fun h => ?_⟩
        rcases this.2 h with h | h <;> omega
      · rw [M.bind_def, hub] at h
        cases h
    · have := (spends_nextBits e 5 p).1 er' p1 h1
      rw [M.bind_err h1] at h
      cases h
      exact ⟨this.1, fun h => by have := this.2 h; omega⟩

/-- `sw842_decompress` reports only these codes, and a lack of space only if there is one, or if there are more than
`UINT_MAX` bytes. -/
theorem sw_err (e : Endian) (addr : Nat) (inp buf b : List Byte) (n : Nat) (er : Errno)
    (h : sw842Decompress e addr inp buf = .ret (some er) n b) :
    Code er ∧ (er = .ENOSPC → 11 * buf.length < 4096 * inp.length ∨ ∃ d, Decodes inp d ∧ d.length > 0xffffffff) := by
  have hres := decompLoop_res e (8 * inp.length + 1) (decompInit_inv inp buf)
    (by rw [decompInit_rest]; simpa using sw842Decompress_fuel inp)
  unfold sw842Decompress at h
  cases hx : decompLoop e (8 * inp.length + 1) (decompInit inp buf) with
  | ok u p1 =>
    rw [hx] at hres
    cases hres with
    | @ok _ ops hi hl hvs hrest hrun =>
      rw [decompInit_rest] at hrest
      rw [decompInit_outp] at hrun
      rw [decompInit_buf] at hl
      rw [decompTail e addr _ hx hi hl] at h
      rcases nextBits_step e (n := 32) (by omega) (by omega) hi with
        ⟨v, p2, h1, hi1, hl1, hv, hr, ho1, hol, hout, hbuf⟩ | ⟨er', p2, h1, hl1⟩
      · rw [h1] at h
        simp only at h
        by_cases hc : v ≠ (crc p1.outp).setWidth 64
        · rw [if_pos hc] at h; cases h; exact ⟨.inl rfl, by simp⟩
        rw [if_neg hc] at h
        by_cases hm : p1.outp.length > 0xffffffff
        · rw [if_pos hm] at h; cases h
          refine ⟨.inr (.inr rfl), fun _ => .inr ⟨p1.outp, ⟨ops, p2.rest, ⟨hvs, hrun⟩, ?_⟩, hm⟩⟩
          have hv : v.toNat = (crc p1.outp).toNat := by
            rw [not_not] at hc; rw [hc, setWidth_crc]
          rw [hrest, hr, hv, trailer]; simp only [List.append_assoc]
        · rw [if_neg hm] at h; cases h
      · rw [h1] at h
        cases h
        have := (spends_nextBits e 32 p1).1 er p2 h1
        exact ⟨this.1, fun h => absurd (this.2 h) (by omega)⟩
  | err er' p1 =>
    unfold sw842DecompressF decompBody at h
    rw [M.bind_err hx] at h
    cases h
    have := decompLoop_err e _ (decompInit_inv inp buf) hx
    refine ⟨this.1, fun h => .inl ?_⟩
    have := this.2 h
    rw [decompInit_buf, decompInit_outp, decompInit_rest, length_bytesBits, List.length_nil] at this
    omega
  | ub =>
    unfold sw842DecompressF decompBody at h
    rw [M.bind_def, hx] at h
    cases h
  | timeout =>
    unfold sw842DecompressF decompBody at h
    rw [M.bind_def, hx] at h
    cases h

/-! ## The optimised decompressor -/

def EOk (p : ODecomp) : Prop := p.errorcode = none ∨ p.errorcode = some .EINVAL

/-- Reports no error but `-EINVAL`, and sets the error code to nothing else. -/
def Plain {α : Type} (x : M ODecomp α) : Prop :=
  ∀ p, EOk p → (∀ er p', x p = .err er p' → er = .EINVAL) ∧ ∀ a p', x p = .ok a p' → EOk p'

theorem Plain.pure {α : Type} (a : α) : Plain (Pure.pure a : M ODecomp α) := by
  intro p hp
  exact ⟨fun er p' h => (by cases h), fun a p' h => (by cases h; exact hp)⟩

theorem Plain.einval {α : Type} : Plain (M.fail .EINVAL : M ODecomp α) := by
  intro p hp
  exact ⟨fun er p' h => (by cases h; rfl), fun a p' h => (by cases h)⟩

theorem Plain.get : Plain M.get := by
  intro p hp
  exact ⟨fun er p' h => (by cases h), fun a p' h => (by cases h; exact hp)⟩

theorem Plain.access {α : Type} (f : ODecomp → Option α) : Plain (M.access f) := by
  intro p hp
  unfold M.access
  cases f p with
  | none => exact ⟨fun er p' h => (by cases h), fun a p' h => (by cases h)⟩
  | some a => exact ⟨fun er p' h => (by cases h), fun a p' h => (by cases h; exact hp)⟩

theorem Plain.modify {f : ODecomp → ODecomp} (h : ∀ p, EOk p → EOk (f p)) : Plain (M.modify f) := by
  intro p hp
  exact ⟨fun er p' h => (by cases h), fun a p' h' => (by cases h'; exact h p hp)⟩

theorem Plain.update {f : ODecomp → Option ODecomp} (h : ∀ p p', EOk p → f p = some p' → EOk p') : Plain (M.update f) := by
  intro p hp
  unfold M.update
  cases hf : f p with
  | none => exact ⟨fun er p' h => (by cases h), fun a p' h => (by cases h)⟩
  | some a => exact ⟨fun er p' h => (by cases h), fun a p' h' => (by cases h'; exact h p _ hp hf)⟩

theorem Plain.bind {α β : Type} {x : M ODecomp α} {f : α → M ODecomp β} (hx : Plain x) (hf : ∀ a, Plain (f a)) :
    Plain (x >>= f) := by
  intro p hp
  have h1 := hx p hp
  rw [M.bind_def]
  cases hr : x p with
  | ok a p1 => exact hf a p1 (h1.2 a p1 hr)
  | err er p1 => exact ⟨fun er' p' h => (by cases h; exact h1.1 er p1 hr), fun b p' h => (by cases h)⟩
  | ub => exact ⟨fun er p' h => (by cases h), fun a p' h => (by cases h)⟩
  | timeout => exact ⟨fun er p' h => (by cases h), fun a p' h => (by cases h)⟩

theorem Plain.ite {α : Type} {c : Prop} [Decidable c] {x y : M ODecomp α} (hx : Plain x) (hy : Plain y) :
    Plain (if c then x else y) := by
  split
  · exact hx
  · exact hy

theorem plain_setError : ∀ p, EOk p → EOk (ODecomp.setError .EINVAL p) := by
  intro p hp
  unfold ODecomp.setError
  cases h : p.errorcode with
  | none => exact .inr rfl
  | some er => exact hp

theorem plain_readBits (e : Endian) (n : Nat) : Plain (readBits e n) := by
  unfold readBits readWord
  exact .bind .get fun p => .ite
    (.bind (.bind .get fun _ => .ite (.bind (.modify plain_setError) fun _ => .pure _)
      (.bind (.access _) fun _ => .bind (.modify fun _ h => h) fun _ => .pure _)) fun _ =>
      .bind (.access _) fun _ => .bind (.modify fun _ h => h) fun _ => .pure _)
    (.bind (.access _) fun _ => .bind (.modify fun _ h => h) fun _ => .pure _)

theorem plain_oemit (bs : List Byte) : Plain (oemit bs) := by
  unfold oemit
  refine .bind (.update fun p p' hp h => ?_) fun _ => .modify fun _ h => h
  rw [Option.map_eq_some_iff] at h
  obtain ⟨b, -, rfl⟩ := h
  exact hp

theorem plain_optStep (e : Endian) (rep : BitVec 64) (s : OptStep) : Plain (optStep e rep s) := by
  cases s with
  | data n shift width =>
    unfold optStep odoData
    exact .bind (.access _) fun v => .ite (plain_oemit _) (.ite (plain_oemit _) (.ite (plain_oemit _) (.modify fun _ h => h)))
  | index n shift width fsize =>
    unfold optStep odoIndex
    exact .bind (.access _) fun v => .bind .get fun p => .ite (.modify plain_setError) (.bind (.access _) fun _ => plain_oemit _)

theorem plain_optSteps (e : Endian) (rep : BitVec 64) (ss : List OptStep) : Plain (optSteps e rep ss) := by
  induction ss with
  | nil => exact .pure _
  | cons s ss ih => exact .bind (plain_optStep e rep s) fun _ => ih

theorem plain_checkError : Plain checkError := by
  intro p hp
  unfold checkError
  rw [M.get_bind_apply]
  rcases hp with h | h <;> rw [h]
  · exact ⟨fun er p' h => (by cases h), fun a p' h' => (by cases h'; exact .inl h)⟩
  · exact ⟨fun er p' h => (by cases h; rfl), fun a p' h => (by cases h)⟩

theorem plain_odoRepeat (n : Nat) : Plain (odoRepeat n) := by
  induction n with
  | zero => exact .pure _
  | succ n ih => exact .bind (.access _) fun _ => .bind (plain_oemit _) fun _ => ih

/-- Errors of one iteration -/
theorem optIter_err (e : Endian) {p p' : ODecomp} {er : Errno} (hp : optView.Inv p) (h : optIter e p = .err er p') :
    er = .EINVAL ∨ (er = .ENOSPC ∧ ((p.buf.length < p.out + 8 ∧ 5 ≤ p.rest.length) ∨
      (p.buf.length < p.out + 512 ∧ 11 ≤ p.rest.length))) := by
  obtain ⟨hp, herr, h8⟩ := hp
  have heok : EOk p := .inl herr
  unfold optIter at h
  obtain ⟨v, p1, h1, hi1, hs1, hcase⟩ := readBits_spec e (n := 5) (by omega) (by omega) hp
  have hb1 : p1.buf.length = p.buf.length := by rw [hs1.buf]
  have he1 : EOk p1 := (plain_readBits e 5 p heok).2 v p1 h1
  rw [M.bind_ok h1] at h
  rcases hcase with ⟨hv, hr, he⟩ | ⟨_, hne, _⟩
  swap
  · obtain ⟨er', hc⟩ := checkError_ne hne
    have := (plain_checkError p1 he1).1 _ _ hc
    rw [M.bind_err hc] at h
    cases h
    exact .inl this
  have hrl : p.rest.length = 5 + p1.rest.length := by rw [hr]; simp
  rw [M.bind_ok (checkError_none (he.trans herr)), M.get_bind_apply] at h
  by_cases hsp : (v.toNat < 0x1a ∨ v.toNat = 0x1C) ∧ p1.out + 8 > p1.olen
  · rw [if_pos hsp] at h
    cases h
    have := hi1.olen
    have := hs1.out
    exact .inr ⟨rfl, .inl ⟨by omega, by omega⟩⟩
  rw [if_neg hsp] at h
  by_cases hend : v.toNat = 0x1E
  · rw [if_pos hend] at h; cases h
  rw [if_neg hend] at h
  unfold odoOp at h
  cases hsw : optSwitch[v.toNat]? with
  | some row =>
    rw [hsw] at h
    left
    have hpl : Plain ((readBits e row.1 >>= fun rep => optSteps e rep row.2) >>= fun _ => checkError >>= fun _ =>
        (Pure.pure false : M ODecomp Bool)) :=
      .bind (.bind (plain_readBits _ _) fun _ => plain_optSteps _ _ _) fun _ => .bind plain_checkError fun _ => .pure _
    exact (hpl p1 he1).1 _ _ h
  | none =>
    rw [hsw] at h
    simp only at h
    by_cases h1b : v.toNat = 0x1B
    · rw [if_pos h1b] at h
      obtain ⟨w, p2, h2, hi2, hs2, hcase2⟩ := readBits_spec e (n := 6) (by omega) (by omega) hi1
      have he2 : EOk p2 := (plain_readBits e 6 p1 he1).2 w p2 h2
      rw [M.bind_assoc', M.bind_ok h2, M.bind_assoc'] at h
      rcases hcase2 with ⟨hw, hr2, he'⟩ | ⟨_, hne, _⟩
      swap
      · obtain ⟨er', hc⟩ := checkError_ne hne
        have := (plain_checkError p2 he2).1 _ _ hc
        rw [M.bind_err hc] at h
        cases h
        exact .inl this
      have hrl2 : p1.rest.length = 6 + p2.rest.length := by rw [hr2]; simp
      rw [M.bind_ok (checkError_none (he'.trans (he.trans herr))), M.bind_assoc', M.get_bind_apply] at h
      by_cases hz : p2.out = 0
      · rw [if_pos hz] at h; cases h; exact .inl rfl
      rw [if_neg hz] at h
      by_cases hs : p2.out + (w.toNat + 1) * 8 > p2.olen
      · rw [if_pos hs] at h
        have : p2.buf.length = p1.buf.length := by rw [hs2.buf]
        have := hi2.olen
        have := hs1.out
        have := hs2.out
        cases h
        exact .inr ⟨rfl, .inr ⟨by omega, by omega⟩⟩
      · rw [if_neg hs] at h
        have hpl : Plain (odoRepeat (w.toNat + 1) >>= fun _ => checkError >>= fun _ => (Pure.pure false : M ODecomp Bool)) :=
          .bind (plain_odoRepeat _) fun _ => .bind plain_checkError fun _ => .pure _
        exact .inl ((hpl p2 he2).1 _ _ h)
    rw [if_neg h1b] at h
    left
    by_cases h1c : v.toNat = 0x1C
    · rw [if_pos h1c] at h
      have hpl : Plain (oemit (List.replicate 8 0#8) >>= fun _ => checkError >>= fun _ => (Pure.pure false : M ODecomp Bool)) :=
        .bind (plain_oemit _) fun _ => .bind plain_checkError fun _ => .pure _
      exact (hpl p1 he1).1 _ _ h
    · rw [if_neg h1c] at h
      have hpl : Plain ((M.fail .EINVAL : M ODecomp Unit) >>= fun _ => checkError >>= fun _ => (Pure.pure false : M ODecomp Bool)) :=
        .bind .einval fun _ => .bind plain_checkError fun _ => .pure _
      exact (hpl p1 he1).1 _ _ h

theorem optLoop_err (e : Endian) (fuel : Nat) {p p' : ODecomp} {er : Errno} (hp : optView.Inv p)
    (h : M.doWhile (optIter e) fuel p = .err er p') :
    er = .EINVAL ∨ (er = .ENOSPC ∧ 11 * p.buf.length < 11 * p.outp.length + 512 * p.rest.length) := by
  induction fuel generalizing p with
  | zero => cases h
  | succ fuel ih =>
    rw [M.doWhile] at h
    have hs := optIter_sound e hp
    cases hx : optIter e p with
    | ok b p1 =>
      rw [hx] at hs
      cases hs with
      | fin => rw [M.bind_ok hx, if_pos rfl] at h; cases h
      | @op _ op hi hb hv hsh hr hst =>
        rw [M.bind_ok hx, if_neg (by decide)] at h
        have hb : p1.buf.length = p.buf.length := hb
        have hr : p.rest = op.bits ++ p1.rest := hr
        have hst : OpStep p.outp op p1.outp := hst
        have hrl : p.rest.length = op.bits.length + p1.rest.length := by rw [hr, List.length_append]
        have hx := (op_expand hv hst).1
        rcases ih hi h with h | ⟨h, h2⟩
        · exact .inl h
        · exact .inr ⟨h, by omega⟩
    | err er' p1 =>
      have := optIter_err e hp hx
      have hlo := hp.1.length_outp
      rw [M.bind_err hx] at h
      cases h
      rcases this with h | ⟨h, h2⟩
      · exact .inl h
      · exact .inr ⟨h, by omega⟩
    | ub => rw [M.bind_def, hx] at h; cases h
    | timeout => rw [M.bind_def, hx] at h; cases h

theorem opt_err (e : Endian) (ain aout : Nat) (hal : ain % 8 = 0 ∧ aout % 8 = 0) (inp buf b : List Byte) (n : Nat) (er : Errno)
    (h : optsw842Decompress e ain aout inp buf = .ret (some er) n b) :
    er = .EINVAL ∨ (er = .ENOSPC ∧ 11 * buf.length < 4096 * inp.length) := by
  unfold optsw842Decompress at h
  have hw := words_le inp
  have hres := (optIter_ok e).loop_res (8 * inp.length + 1) (optInit_inv inp buf)
    (by show (optInit inp buf).rest.length < _; rw [optInit_rest]; omega)
  generalize hx : M.doWhile (optIter e) (8 * inp.length + 1) (optInit inp buf) = x at hres
  cases hres with
  | @ok p1 ops hi hl hvs hsh hrest hrun =>
    rw [optTail e ain aout _ hal hx hi] at h
    have hpl : Plain (readBits e 32 >>= fun c => checkError >>= fun _ => (Pure.pure c : M ODecomp (BitVec 64))) :=
      .bind (plain_readBits _ _) fun _ => .bind plain_checkError fun _ => .pure _
    have hpl := (hpl p1 (.inl hi.2.1)).1
    left
    cases hy : (readBits e 32 >>= fun c => checkError >>= fun _ => (Pure.pure c : M ODecomp (BitVec 64))) p1 with
    | ok c p2 =>
      rw [hy] at h
      simp only at h
      split at h
      · cases h; rfl
      · cases h
    | err er' p2 => rw [hy] at h; cases h; exact hpl _ _ hy
    | ub => rw [hy] at h; cases h
    | timeout => rw [hy] at h; cases h
  | @err er' p1 hl =>
    unfold optsw842DecompressF optBody at h
    rw [if_neg (by omega), M.bind_err hx] at h
    cases h
    rcases optLoop_err e _ (optInit_inv inp buf) hx with h | ⟨h, h2⟩
    · exact .inl h
    · right
      refine ⟨h, ?_⟩
      have hr : (optInit inp buf).rest.length = 8 * (ODecomp.words inp).length := by
        rw [optInit_rest, length_bytesBits]
      have hb : (optInit inp buf).buf.length = buf.length := rfl
      have ho : (optInit inp buf).outp.length = 0 := rfl
      rw [length_bytesBits] at hw
      omega

/-- The OpenCL decoder -/
theorem ocl_err (e : Endian) (inp buf b : List Byte) (ioff ilen olen n : Nat) (er : Errno)
    (hin : 8 * ioff + 8 * ((ilen + 7) / 8) ≤ inp.length) (hout : olen ≤ buf.length)
    (h : oclCore e (some inp) ioff ilen buf olen = .ret (some er) n b) :
    (er = .EINVAL ∧ ¬ ∃ d, OpsDecode ((inp.drop (8 * ioff)).take (8 * (ilen / 8))) d) ∨
      (er = .ENOSPC ∧ 11 * olen < 4096 * ilen) := by
  have hr := oclCore_res e inp ioff ilen buf olen hin hout
  rw [h] at hr
  cases hr with
  | @full ops o _ R hx hs hb ho =>
    right
    refine ⟨rfl, ?_⟩
    have h1 := run_expand hx.1 hx.2
    have hl := congrArg List.length hb
    simp only [length_bytesBits, List.length_append, List.length_take, List.length_nil] at hl h1
    omega
  | bad h2 => exact .inl ⟨rfl, h2⟩

end Codes

end Lib842
