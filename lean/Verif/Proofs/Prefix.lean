import Verif.Proofs.OptCall
import Verif.Proofs.Ocl
import Verif.Proofs.Torn
import Verif.Proofs.NewWords
/-!
# Decoders never change output they have already produced
-/

namespace Lib842
open Spec

/-- Whatever `x` does, the first `o p` bytes of the output buffer stay as they are, and `o` does not decrease. -/
def Keeps {σ α : Type} (b : σ → List Byte) (o : σ → Nat) (x : M σ α) : Prop :=
  ∀ p, (∀ a p', x p = .ok a p' → o p ≤ o p' ∧ (b p').take (o p) = (b p).take (o p)) ∧
    ∀ er p', x p = .err er p' → o p ≤ o p' ∧ (b p').take (o p) = (b p).take (o p)

namespace Keeps
variable {σ α β : Type} {b : σ → List Byte} {o : σ → Nat}

theorem pure (a : α) : Keeps b o (Pure.pure a : M σ α) :=
  fun p => ⟨fun _ _ h => by cases h; exact ⟨Nat.le_refl _, rfl⟩, fun _ _ h => by cases h⟩

theorem fail (er : Errno) : Keeps b o (M.fail er : M σ α) :=
  fun p => ⟨fun _ _ h => (by cases h), fun _ _ h => (by cases h; exact ⟨Nat.le_refl _, rfl⟩)⟩

theorem timeout : Keeps b o (M.timeout : M σ α) := fun _ => ⟨fun _ _ h => (by cases h), fun _ _ h => (by cases h)⟩

theorem get : Keeps b o (M.get : M σ σ) :=
  fun p => ⟨fun _ _ h => by cases h; exact ⟨Nat.le_refl _, rfl⟩, fun _ _ h => by cases h⟩

theorem access (f : σ → Option α) : Keeps b o (M.access f) := by
  intro p
  unfold M.access
  cases f p with
  | none => exact ⟨fun _ _ h => (by cases h), fun _ _ h => (by cases h)⟩
  | some a => exact ⟨fun _ _ h => (by cases h; exact ⟨Nat.le_refl _, rfl⟩), fun _ _ h => (by cases h)⟩

theorem modify {f : σ → σ} (hb : ∀ p, b (f p) = b p) (ho : ∀ p, o (f p) = o p) : Keeps b o (M.modify f) :=
  fun p => ⟨fun _ _ h => by cases h; exact ⟨by rw [ho], by rw [hb]⟩, fun _ _ h => by cases h⟩

theorem trans_aux {p p1 p2 : σ} (h1 : o p ≤ o p1 ∧ (b p1).take (o p) = (b p).take (o p))
    (h2 : o p1 ≤ o p2 ∧ (b p2).take (o p1) = (b p1).take (o p1)) : o p ≤ o p2 ∧ (b p2).take (o p) = (b p).take (o p) := by
  refine ⟨by omega, ?_⟩
  have := congrArg (List.take (o p)) h2.2
  rw [List.take_take, List.take_take, Nat.min_eq_left h1.1] at this
  rw [this, h1.2]

theorem bind {x : M σ α} {f : α → M σ β} (hx : Keeps b o x) (hf : ∀ a, Keeps b o (f a)) : Keeps b o (x >>= f) := by
  intro p
  rw [M.bind_def]
  cases hr : x p with
  | ok a p1 =>
    have h1 := (hx p).1 a p1 hr
    exact ⟨fun c p2 h => trans_aux h1 ((hf a p1).1 c p2 h), fun er p2 h => trans_aux h1 ((hf a p1).2 er p2 h)⟩
  | err er p1 =>
    exact ⟨fun _ _ h => (by cases h), fun _ _ h => (by cases h; exact (hx p).2 _ _ hr)⟩
  | ub => exact ⟨fun _ _ h => (by cases h), fun _ _ h => (by cases h)⟩
  | timeout => exact ⟨fun _ _ h => (by cases h), fun _ _ h => (by cases h)⟩

theorem ite {c : Prop} [Decidable c] {x y : M σ α} (hx : Keeps b o x) (hy : Keeps b o y) : Keeps b o (if c then x else y) := by
  split
  · exact hx
  · exact hy

theorem doWhile {it : M σ Bool} (h : Keeps b o it) : ∀ fuel, Keeps b o (M.doWhile it fuel)
  | 0 => timeout
  | fuel + 1 => by
    rw [M.doWhile]
    exact bind h fun _ => ite (pure _) (doWhile h fuel)

/-- A write at the end of the output. -/
theorem write {f : σ → Option σ} (h : ∀ p p', f p = some p' → o p ≤ o p' ∧ (b p').take (o p) = (b p).take (o p)) : Keeps b o (M.update f) := by
  intro p
  unfold M.update
  cases hf : f p with
  | none => exact ⟨fun _ _ h => (by cases h), fun _ _ h => (by cases h)⟩
  | some p1 => exact ⟨fun _ _ h' => (by cases h'; exact h _ _ hf), fun _ _ h => (by cases h)⟩

end Keeps

theorem writeBytes_take {m m' : List Byte} {i : Nat} {bs : List Byte} (h : writeBytes m i bs = some m') : m'.take i = m.take i := by
  unfold writeBytes at h
  split at h
  · cases h
    rw [List.append_assoc, List.take_left' (by rw [List.length_take]; omega)]
  · cases h

/-! ## The serial decompressor -/

abbrev SwKeeps {α : Type} (x : M Decomp α) : Prop := Keeps Decomp.buf Decomp.out x

theorem keeps_emit (bs : List Byte) : SwKeeps (emit bs) := by
  unfold emit
  refine .bind (.write fun p p' h => ?_) fun _ => fun p => ⟨fun _ _ h => by cases h; exact ⟨Nat.le_add_right .., rfl⟩, fun _ _ h => by cases h⟩
  cases hw : writeBytes p.buf p.out bs with
  | none => rw [hw] at h; cases h
  | some m => rw [hw] at h; cases h; exact ⟨Nat.le_refl _, writeBytes_take hw⟩

theorem keeps_splitNextBits {f : Nat → M Decomp (BitVec 64)} (hf : ∀ n, SwKeeps (f n)) (n s : Nat) : SwKeeps (splitNextBits f n s) := by
  unfold splitNextBits
  exact .ite (.fail _) (.bind (hf _) fun _ => .bind (hf _) fun _ => .pure _)

theorem keeps_nextBitsF (e : Endian) : ∀ fuel n : Nat, SwKeeps (nextBitsF e fuel n)
  | 0, _ => .timeout
  | fuel + 1, n => by
    unfold nextBitsF
    have ih := keeps_splitNextBits (keeps_nextBitsF e fuel)
    refine .bind .get fun p => .ite (.fail _) (.ite (ih _ _) (.ite (ih _ _) (.ite (ih _ _) (.ite (.fail _)
      (.bind (.access _) fun _ => .bind (.modify (fun p => ?_) fun p => ?_) fun _ => .pure _)))))
    all_goals by_cases h : p.bit + n > 7 <;> simp [h]

theorem keeps_nextBits (e : Endian) (n : Nat) : SwKeeps (nextBits e n) := keeps_nextBitsF e _ n

theorem keeps_doData (e : Endian) (n : Nat) : SwKeeps (doData e n) := by
  unfold doData
  exact .bind .get fun _ => .ite (.fail _) (.bind (keeps_nextBits e _) fun _ =>
    .ite (keeps_emit _) (.ite (keeps_emit _) (.ite (keeps_emit _) (.fail _))))

theorem keeps_doIndexN (e : Endian) (size bits fsize : Nat) : SwKeeps (doIndexN e size bits fsize) := by
  unfold doIndexN
  exact .bind .get fun _ => .bind (keeps_nextBits e _) fun _ => .ite (.fail _)
    (.bind .get fun _ => .ite (.fail _) (.bind (.access _) fun _ => keeps_emit _))

theorem keeps_doIndex (e : Endian) (n : Nat) : SwKeeps (doIndex e n) := by
  unfold doIndex
  exact .ite (keeps_doIndexN e _ _ _) (.ite (keeps_doIndexN e _ _ _) (.ite (keeps_doIndexN e _ _ _) (.fail _)))

theorem keeps_doActions (e : Endian) : ∀ ops : List Nat, SwKeeps (doActions e ops)
  | [] => .pure _
  | op :: ops => by
    unfold doActions
    have ih := keeps_doActions e ops
    exact .ite (.bind (keeps_doData e _) fun _ => ih) (.ite (.bind (keeps_doIndex e _) fun _ => ih) (.ite ih (.bind (.fail _) fun _ => ih)))

theorem keeps_doOp (e : Endian) (o : Nat) : SwKeeps (doOp e o) := by
  unfold doOp
  exact .ite (.fail _) (.bind (.access _) fun _ => keeps_doActions e _)

theorem keeps_doRepeat : ∀ n : Nat, SwKeeps (doRepeat n)
  | 0 => .pure _
  | n + 1 => by
    unfold doRepeat
    exact .bind (.access _) fun _ => .bind (keeps_emit _) fun _ => keeps_doRepeat n

theorem keeps_doShort (e : Endian) : ∀ n : Nat, SwKeeps (doShort e n)
  | 0 => .pure _
  | n + 1 => by
    unfold doShort
    exact .bind (keeps_nextBits e _) fun _ => .bind (keeps_emit _) fun _ => keeps_doShort e n

theorem keeps_decompOp (e : Endian) (op : Nat) : SwKeeps (decompOp e op) := by
  unfold decompOp
  exact .ite (.bind (keeps_nextBits e _) fun _ => .bind .get fun _ => .ite (.fail _) (.ite (.fail _) (keeps_doRepeat _)))
    (.ite (.bind .get fun _ => .ite (.fail _) (keeps_emit _))
    (.ite (.bind (keeps_nextBits e _) fun _ => .ite (.fail _) (.bind .get fun _ => .ite (.fail _) (keeps_doShort e _))) (keeps_doOp e op)))

theorem keeps_decompLoop (e : Endian) : ∀ fuel : Nat, SwKeeps (decompLoop e fuel)
  | 0 => .timeout
  | fuel + 1 => by
    unfold decompLoop
    exact .bind (keeps_nextBits e _) fun _ => .ite (.pure _) (.bind (keeps_decompOp e _) fun _ => keeps_decompLoop e fuel)

/-! ## The optimised decompressor -/

abbrev OptKeeps {α : Type} (x : M ODecomp α) : Prop := Keeps ODecomp.buf ODecomp.out x

theorem keeps_setError (er : Errno) : OptKeeps (M.modify (ODecomp.setError er)) :=
  .modify (fun p => by unfold ODecomp.setError; split <;> rfl) (fun p => by unfold ODecomp.setError; split <;> rfl)

theorem keeps_readWord (e : Endian) : OptKeeps (readWord e) := by
  unfold readWord
  exact .bind .get fun _ => .ite (.bind (keeps_setError _) fun _ => .pure _)
    (.bind (.access _) fun _ => .bind (.modify (fun _ => rfl) fun _ => rfl) fun _ => .pure _)

theorem keeps_readBits (e : Endian) (n : Nat) : OptKeeps (readBits e n) := by
  unfold readBits
  exact .bind .get fun _ => .ite (.bind (keeps_readWord e) fun _ => .bind (.access _) fun _ =>
    .bind (.modify (fun _ => rfl) fun _ => rfl) fun _ => .pure _)
    (.bind (.access _) fun _ => .bind (.modify (fun _ => rfl) fun _ => rfl) fun _ => .pure _)

theorem keeps_oemit (bs : List Byte) : OptKeeps (oemit bs) := by
  unfold oemit
  refine .bind (.write fun p p' h => ?_) fun _ => fun p => ⟨fun _ _ h => by cases h; exact ⟨Nat.le_add_right .., rfl⟩, fun _ _ h => by cases h⟩
  cases hw : writeBytes p.buf p.out bs with
  | none => rw [hw] at h; cases h
  | some m => rw [hw] at h; cases h; exact ⟨Nat.le_refl _, writeBytes_take hw⟩

theorem keeps_odoData (e : Endian) (n : Nat) (d : BitVec 64) : OptKeeps (odoData e n d) := by
  unfold odoData
  exact .ite (keeps_oemit _) (.ite (keeps_oemit _) (.ite (keeps_oemit _)
    fun p => ⟨fun _ _ h => by cases h; exact ⟨Nat.le_add_right .., rfl⟩, fun _ _ h => by cases h⟩))

theorem keeps_odoIndex (size index fsize : Nat) : OptKeeps (odoIndex size index fsize) := by
  unfold odoIndex
  exact .bind .get fun _ => .ite (keeps_setError _) (.bind (.access _) fun _ => keeps_oemit _)

theorem keeps_optSteps (e : Endian) (rep : BitVec 64) : ∀ ss : List OptStep, OptKeeps (optSteps e rep ss)
  | [] => .pure _
  | s :: ss => by
    unfold optSteps
    refine .bind ?_ fun _ => keeps_optSteps e rep ss
    cases s with
    | data => exact .bind (.access _) fun _ => keeps_odoData e _ _
    | index => exact .bind (.access _) fun _ => keeps_odoIndex _ _ _

theorem keeps_checkError : OptKeeps checkError := by
  unfold checkError
  refine .bind .get fun p => ?_
  cases p.errorcode with
  | none => exact .pure _
  | some er => exact .fail _

theorem keeps_odoRepeat : ∀ n : Nat, OptKeeps (odoRepeat n)
  | 0 => .pure _
  | n + 1 => by
    unfold odoRepeat
    exact .bind (.access _) fun _ => .bind (keeps_oemit _) fun _ => keeps_odoRepeat n

theorem keeps_odoOp (e : Endian) (op : Nat) : OptKeeps (odoOp e op) := by
  unfold odoOp
  split
  · exact .bind (keeps_readBits e _) fun _ => keeps_optSteps e _ _
  · exact .ite (.bind (keeps_readBits e _) fun _ => .bind keeps_checkError fun _ => .bind .get fun _ =>
      .ite (.fail _) (.ite (.fail _) (keeps_odoRepeat _))) (.ite (keeps_oemit _) (.fail _))

theorem keeps_optIter (e : Endian) : OptKeeps (optIter e) := by
  unfold optIter
  exact .bind (keeps_readBits e _) fun _ => .bind keeps_checkError fun _ => .bind .get fun _ => .ite (.fail _)
    (.ite (.pure _) (.bind (keeps_odoOp e _) fun _ => .bind keeps_checkError fun _ => .pure _))

/-! ## The OpenCL decoder -/

abbrev OclKeeps {α : Type} (x : M OclP α) : Prop := Keeps OclP.buf (fun p => 8 * p.out) x

theorem keeps_oclShift (e : Endian) : OclKeeps (oclShift e) := by
  unfold oclShift
  refine .bind (.access _) fun _ => .bind .get fun p => ?_
  split
  · exact .bind (.modify (fun _ => rfl) fun _ => rfl) fun _ => .pure _
  · exact fun _ => ⟨fun _ _ h => (by cases h), fun _ _ h => (by cases h)⟩

theorem keeps_oclReadBits (e : Endian) (n : Nat) : OclKeeps (oclReadBits e n) := by
  unfold oclReadBits
  exact .bind .get fun _ => .ite (.ite (.fail _) (.bind (keeps_oclShift e) fun _ => .bind (.modify (fun _ => rfl) fun _ => rfl) fun _ =>
    .bind (.access _) fun _ => .bind (.modify (fun _ => rfl) fun _ => rfl) fun _ => .pure _))
    (.bind (.access _) fun _ => .bind (.modify (fun _ => rfl) fun _ => rfl) fun _ => .pure _)

theorem keeps_oclGetIndex (size index fsize : Nat) : OclKeeps (oclGetIndex size index fsize) := by
  unfold oclGetIndex
  exact .bind .get fun _ => .ite (.fail _) (.pure _)

theorem keeps_oclField (e : Endian) (params : BitVec 64) (i d n : Nat) (l : Nat × BitVec 64 × Nat) : OclKeeps (oclField e params i d n l) := by
  unfold oclField oclRef
  exact .ite (.bind (keeps_oclGetIndex _ _ _) fun _ => .bind (.bind (.access _) fun _ => .bind (.access _) fun _ => .pure _) fun _ => .pure _) (.pure _)

theorem keeps_oclFields (e : Endian) (params : BitVec 64) : ∀ fs l, OclKeeps (oclFields e params fs l)
  | [], _ => .pure _
  | f :: fs, l => by
    unfold oclFields
    exact .bind (keeps_oclField e _ _ _ _ _) fun _ => keeps_oclFields e params fs _

theorem keeps_oclPut (bs : List Byte) : OclKeeps (oclPut bs) := by
  unfold oclPut
  refine .bind (.write fun p p' h => ?_) fun _ => fun p =>
    ⟨fun _ _ h => by cases h; exact ⟨Nat.mul_le_mul_left 8 (Nat.le_add_right ..), rfl⟩, fun _ _ h => by cases h⟩
  cases hw : writeBytes p.buf (8 * p.out) bs with
  | none => rw [hw] at h; cases h
  | some m => rw [hw] at h; cases h; exact ⟨Nat.le_refl _, writeBytes_take hw⟩

theorem keeps_oclRoom (k : Nat) : OclKeeps (oclRoom k) := by
  unfold oclRoom
  exact .bind .get fun _ => .ite (.fail _) (.pure _)

theorem keeps_oclDoOp (e : Endian) (op : Nat) : OclKeeps (oclDoOp e op) := by
  unfold oclDoOp
  exact .ite (.fail _) (.bind (keeps_oclReadBits e _) fun _ => .bind (keeps_oclFields e _ _ _) fun _ => .bind (keeps_oclRoom _) fun _ => keeps_oclPut _)

theorem keeps_oclRepeat : ∀ n : Nat, OclKeeps (oclRepeat n)
  | 0 => .pure _
  | n + 1 => by
    unfold oclRepeat
    exact .bind (.access _) fun _ => .bind (keeps_oclPut _) fun _ => keeps_oclRepeat n

theorem keeps_oclIter (e : Endian) : OclKeeps (oclIter e) := by
  unfold oclIter
  exact .bind (keeps_oclReadBits e _) fun _ =>
    .ite (.bind (keeps_oclReadBits e _) fun _ => .bind .get fun _ => .ite (.fail _)
      (.bind (keeps_oclRoom _) fun _ => .bind (keeps_oclRepeat _) fun _ => .pure _))
    (.ite (.bind (keeps_oclRoom _) fun _ => .bind (keeps_oclPut _) fun _ => .pure _)
    (.ite (.pure _)
    (.ite (.bind (keeps_oclReadBits e _) fun _ => .bind (keeps_oclGetIndex _ _ _) fun _ => .bind (keeps_oclRoom _) fun _ =>
      .bind (.access _) fun _ => .bind (keeps_oclPut _) fun _ => .pure _)
    (.bind (keeps_oclDoOp e _) fun _ => .pure _))))

/-! ## The calls -/

theorem sw_prefix (e : Endian) (addr : Nat) (c buf : List Byte) {ops : List Op} {o : List Byte} {R : List Bool} (hx : Expands ops o)
    (hb : bytesBits c = ops.flatMap Op.bits ++ R) (hcap : o.length ≤ buf.length) {rc : Option Errno} {n : Nat} {b : List Byte}
    (h : sw842Decompress e addr c buf = .ret rc n b) : b.take o.length = o := by
  rcases decompLoop_run e ops hx.1 (decompInit_inv c buf) (R := R) (by rw [decompInit_rest, hb]) (o := o) hx.2 with
    ⟨-, p1, hi1, hl1, hr1, ho1, hf1⟩ | ⟨hlt, -⟩
  swap
  · rw [decompInit_buf] at hlt; omega
  have hlen := length_flatMap_bits ops
  have hbl := congrArg List.length hb
  rw [length_bytesBits, List.length_append] at hbl
  obtain ⟨f, hf⟩ : ∃ f, 8 * c.length + 1 = f + ops.length := ⟨8 * c.length + 1 - ops.length, by omega⟩
  have hk : SwKeeps (decompLoop e f >>= fun _ => (nextBits e 32 >>= fun crc => M.get >>= fun p =>
      (M.access fun p : Decomp => crc32be e addr 0#32 p.buf (buf.length - p.olen)) >>= fun want =>
      (if crc ≠ want.setWidth 64 then M.fail .EINVAL else if buf.length - p.olen > 0xffffffff then M.fail .ENOSPC
        else pure (buf.length - p.olen) : M Decomp Nat))) :=
    .bind (keeps_decompLoop e f) fun _ => .bind (keeps_nextBits e _) fun _ => .bind .get fun _ => .bind (.access _) fun _ =>
      .ite (.fail _) (.ite (.fail _) (.pure _))
  have ho : p1.out = o.length := by rw [← ho1, hi1.length_outp]
  have hp1 : p1.buf.take o.length = o := by rw [← ho]; exact ho1
  unfold sw842Decompress sw842DecompressF at h
  have he : decompBody e addr (8 * c.length + 1) buf.length (decompInit c buf) = (decompLoop e f >>= fun _ => (nextBits e 32 >>= fun crc => M.get >>= fun p =>
      (M.access fun p : Decomp => crc32be e addr 0#32 p.buf (buf.length - p.olen)) >>= fun want =>
      (if crc ≠ want.setWidth 64 then M.fail .EINVAL else if buf.length - p.olen > 0xffffffff then M.fail .ENOSPC
        else pure (buf.length - p.olen) : M Decomp Nat))) p1 := by
    unfold decompBody
    rw [hf, M.bind_def, hf1, M.bind_def]
  rw [he] at h
  split at h
  · rename_i m p hm
    cases h
    have := ((hk p1).1 _ _ hm).2
    rw [ho] at this
    rw [this, hp1]
  · rename_i er p hm
    cases h
    have := ((hk p1).2 _ _ hm).2
    rw [ho] at this
    rw [this, hp1]
  · cases h
  · cases h

theorem opt_prefix (e : Endian) (ain aout : Nat) (hal : ain % 8 = 0 ∧ aout % 8 = 0) (c buf : List Byte) {ops : List Op} {o : List Byte} {R : List Bool}
    (hx : Expands ops o) (hsh : ∀ op ∈ ops, op.isShort = false)
    (hb : bytesBits (ODecomp.words c) = ops.flatMap Op.bits ++ R) (hcap : o.length ≤ buf.length) {rc : Option Errno} {n : Nat} {b : List Byte}
    (h : optsw842Decompress e ain aout c buf = .ret rc n b) : b.take o.length = o := by
  rcases (optIter_ok e).loop_run ops hx.1 hsh (optInit_inv c buf) (R := R) (by show (optInit c buf).rest = _; rw [optInit_rest, hb])
    (o := o) hx.2 with ⟨-, p1, hi1, hl1, hr1, ho1, hf1⟩ | ⟨hlt, -⟩
  swap
  · have hlt : buf.length < o.length := hlt; omega
  have hlen := length_flatMap_bits ops
  have hbl := congrArg List.length hb
  have hw := words_le c
  rw [List.length_append] at hbl
  obtain ⟨f, hf⟩ : ∃ f, 8 * c.length + 1 = f + ops.length := ⟨8 * c.length + 1 - ops.length, by omega⟩
  have ho1 : p1.outp = o := ho1
  have ho : p1.out = o.length := by rw [← ho1, hi1.1.length_outp]
  have hp1 : p1.buf.take o.length = o := by rw [← ho]; exact ho1
  have hk : OptKeeps (optBody e aout f) := by
    unfold optBody
    exact .bind (.doWhile (keeps_optIter e) f) fun _ => .bind (keeps_readBits e _) fun _ => .bind keeps_checkError fun _ =>
      .bind .get fun _ => .bind (.access _) fun _ => .ite (.fail _) (.pure _)
  have he : optBody e aout (8 * c.length + 1) (optInit c buf) = optBody e aout f p1 := by
    unfold optBody
    rw [hf, M.bind_def, hf1, M.bind_def]
  unfold optsw842Decompress optsw842DecompressF at h
  rw [if_neg (by omega), he] at h
  split at h
  · rename_i m p hm
    cases h
    have := ((hk p1).1 _ _ hm).2
    rw [ho] at this
    rw [this, hp1]
  · rename_i er p hm
    cases h
    have := ((hk p1).2 _ _ hm).2
    rw [ho] at this
    rw [this, hp1]
  · cases h
  · cases h

/-- Running a valid op sequence whose output fits. -/
theorem Dec.Ok.loop_run {σ : Type} {D : Dec σ} {it : M σ Bool} (h : D.Ok it) (hK : ∀ p, D.Keep p) {ops : List Op}
    (hval : ∀ op ∈ ops, op.Valid) (hsh : ∀ op ∈ ops, op.isShort = false) {p : σ} (hp : D.Inv p)
    {R : List Bool} (hR : D.rest p = ops.flatMap Op.bits ++ R) {o : List Byte}
    (hrun : Run (D.outp p) ops o) (hcap : o.length ≤ D.cap) :
    ∃ p', D.Inv p' ∧ D.outp p' = o ∧ ∀ f, M.doWhile it (f + ops.length) p = M.doWhile it f p' := by
  induction ops generalizing p with
  | nil => cases hrun; exact ⟨p, hp, rfl, fun _ => rfl⟩
  | cons op ops ih =>
    have hval' : ∀ op ∈ ops, op.Valid := fun o ho => hval o (List.mem_cons_of_mem _ ho)
    have hsh' : ∀ op ∈ ops, op.isShort = false := fun o ho => hsh o (List.mem_cons_of_mem _ ho)
    have hv0 := hval op (List.mem_cons_self ..)
    have hs0 := hsh op (List.mem_cons_self ..)
    cases hrun with
    | @cons _ _ o1 _ _ h1 h2 =>
      have hle := h2.length_le
      rw [List.flatMap_cons, List.append_assoc] at hR
      have hs := h.step p hp
      generalize hx : it p = x at hs
      cases hs with
      | fin _ _ _ hr => rw [hR] at hr; exact (end_ne_op hv0 hr.symm).elim
      | @op p' op' hw hfu hv _ hr hst =>
        rw [hR] at hr
        obtain ⟨rfl, hr'⟩ := op_bits_inj hv0 hv hr
        have ho : D.outp p' = o1 := OpStep.det hv0 hst h1
        obtain ⟨p2, hi2, ho2, hf2⟩ := ih hval' hsh' ⟨hw, hfu (hK _)⟩ hr'.symm (by rw [ho]; exact h2)
        refine ⟨p2, hi2, ho2, fun f => ?_⟩
        rw [List.length_cons, ← Nat.add_assoc, M.doWhile, M.bind_ok hx, if_neg (by decide)]
        exact hf2 f
      | full hv _ hr hst hfull _ =>
        rw [hR] at hr
        obtain ⟨rfl, hr⟩ := op_bits_inj hv0 hv hr
        have := OpStep.det hv0 hst h1
        subst this
        omega
      | bad _ hno _ => exact absurd h1 (hno op _ o1 hv0 hs0 hR)
      | ub _ hst => have := hst.2 op _ o1 hv0 hs0 hR h1; omega

theorem ocl_prefix (e : Endian) (inp : List Byte) (ioff ilen : Nat) (buf : List Byte) (olen : Nat)
    (hin : 8 * ioff + 8 * ((ilen + 7) / 8) ≤ inp.length) {ops : List Op} {o : List Byte} {R : List Bool} (hx : Expands ops o)
    (hsh : ∀ op ∈ ops, op.isShort = false) (hb : bytesBits ((inp.drop (8 * ioff)).take (8 * (ilen / 8))) = ops.flatMap Op.bits ++ R)
    (hd : o.length ≤ olen) (hdb : o.length ≤ buf.length) {rc : Option Errno} {n : Nat} {b : List Byte}
    (h : oclCore e (some inp) ioff ilen buf olen = .ret rc n b) : b.take o.length = o := by
  obtain ⟨p0, h0, hinv, ho0, hr0⟩ := oclInit_ok e (some inp) ioff ilen buf olen hin
  obtain ⟨G, hG⟩ : ∃ G, oclG e (some inp) ioff ilen buf olen hin = G := ⟨_, rfl⟩
  rw [hG] at hinv ho0 hr0
  have hGb : G.bytes = (inp.drop (8 * ioff)).take (8 * (ilen / 8)) := by rw [← hG]; rfl
  have hGe : G.e = e := by rw [← hG]; rfl
  have hGs : G.src = some inp := by rw [← hG]; rfl
  have hcap : G.cap = min olen buf.length := by rw [← hG]; rfl
  obtain ⟨p1, hi1, ho1, hf1⟩ := (oclIter_ok G).loop_run (fun _ => .inl (by rw [hGs]; simp)) hx.1 hsh hinv (R := R)
    (by rw [hr0, hGb, hb]) (o := o) (by rw [ho0]; exact hx.2) (by show _ ≤ G.cap; rw [hcap]; omega)
  rw [hGe] at hf1
  have hlen := length_flatMap_bits ops
  have hbl := congrArg List.length hb
  rw [List.length_append, length_bytesBits, List.length_take] at hbl
  obtain ⟨f, hf⟩ : ∃ f, 8 * ilen + 1 = f + ops.length := ⟨8 * ilen + 1 - ops.length, by omega⟩
  have ho : 8 * p1.out = o.length := by rw [← ho1]; exact hi1.1.length_outp.symm
  have hp1 : p1.buf.take o.length = o := by rw [← ho]; exact ho1
  have hk : OclKeeps (oclBody e f) := by
    unfold oclBody
    exact .bind (.doWhile (keeps_oclIter e) f) fun _ => .bind (keeps_oclReadBits e _) fun _ => .bind .get fun _ => .pure _
  have he : oclBody e (8 * ilen + 1) p0 = oclBody e f p1 := by
    unfold oclBody
    rw [hf, M.bind_def, hf1, M.bind_def]
  unfold oclCore at h
  rw [h0] at h
  simp only [he] at h
  split at h
  · rename_i m p hm
    cases h
    have := ((hk p1).1 _ _ hm).2
    simp only [ho] at this
    rw [this, hp1]
  · rename_i er p hm
    cases h
    have := ((hk p1).2 _ _ hm).2
    simp only [ho] at this
    rw [this, hp1]
  · cases h
  · cases h

/-! ## How much of the data the first bits of a stream stand for -/

theorem op_le69 {op : Op} (hv : op.Valid) : op.bits.length ≤ 69 := by
  cases op with
  | template code args =>
    have h := hv.1
    have hall : ∀ c < 26, (((templates[c]?).getD []).map fun a => match a with | .D n => 8 * n | .I n => indexBits n).sum ≤ 64 := by decide
    have hlt := hall code (templates_ok code _ h).1
    rw [h, Option.getD_some, List.map_map] at hlt
    have : (args.flatMap Arg.bits).length = (args.map ((fun a => match a with | .D n => 8 * n | .I n => indexBits n) ∘ Arg.action)).sum := by
      clear hlt h hv
      induction args with
      | nil => rfl
      | cons a as ih =>
        rw [List.flatMap_cons, List.length_append, ih, List.map_cons, List.sum_cons]
        cases a <;> simp [Arg.bits, Arg.action]
    simp only [Op.bits, List.length_append, length_bitsOf]
    omega
  | rep n => simp [Op.bits]
  | zeros => simp [Op.bits]
  | short bs => have := hv.2; simp [Op.bits]; omega

theorem opStep_ge8 {a b : List Byte} {op : Op} (hv : op.Valid) (hs : op.isShort = false) (h : OpStep a op b) : a.length + 8 ≤ b.length := by
  cases h with
  | @template code args _ hrun =>
    have := ArgsRun.length_eq hrun
    have h8 : actionsSize (args.map Arg.action) = 8 := (templates_ok code _ hv.1).2.2.1
    omega
  | @rep n h8 =>
    have h8' : a.length - (a.length - 8) = 8 := by omega
    simp [h8', Nat.add_mul]
  | zeros => simp
  | short => exact absurd hs (by simp [Op.isShort])

theorem run_ge8 {a b : List Byte} {ops : List Op} (hv : ∀ op ∈ ops, op.Valid) (hs : ∀ op ∈ ops, op.isShort = false)
    (h : Run a ops b) : a.length + 8 * ops.length ≤ b.length := by
  induction h with
  | nil => simp
  | @cons out op out' ops out'' h1 _ ih =>
    have := ih (fun o ho => hv o (List.mem_cons_of_mem _ ho)) (fun o ho => hs o (List.mem_cons_of_mem _ ho))
    have := opStep_ge8 (hv op List.mem_cons_self) (hs op List.mem_cons_self) h1
    simp only [List.length_cons]
    omega

theorem flatMap_le69 {ops : List Op} (hv : ∀ op ∈ ops, op.Valid) : (ops.flatMap Op.bits).length ≤ 69 * ops.length := by
  induction ops with
  | nil => simp
  | cons op ops ih =>
    have := ih fun o ho => hv o (List.mem_cons_of_mem _ ho)
    have := op_le69 (hv op List.mem_cons_self)
    simp only [List.flatMap_cons, List.length_append, List.length_cons]
    omega

theorem run_split {a c : List Byte} {pre post : List Op} (h : Run a (pre ++ post) c) : ∃ b, Run a pre b ∧ Run b post c := by
  induction pre generalizing a with
  | nil => exact ⟨a, .nil, h⟩
  | cons op pre ih =>
    cases h with
    | cons h1 h2 =>
      obtain ⟨b, h3, h4⟩ := ih h2
      exact ⟨b, .cons h1 h3, h4⟩

/-- The ops within the first `B` bits of a stream, and the data they stand for -/
theorem ops_within {ops : List Op} {x : List Byte} (hx : Expands ops x) (hs : ∀ op ∈ ops.dropLast, op.isShort = false) (B : Nat) :
    ∃ pre post o, ops = pre ++ post ∧ (pre.flatMap Op.bits).length ≤ B ∧ Expands pre o ∧ (∀ op ∈ pre, op ∈ ops) ∧
      min x.length (8 * (B / 69)) ≤ o.length ∧ x.take o.length = o := by
  have heq := List.take_append_drop (B / 69) ops
  have hv : ∀ op ∈ ops.take (B / 69), op.Valid := fun op h => hx.1 op (List.mem_of_mem_take h)
  have hx2 := hx.2
  rw [← heq] at hx2
  obtain ⟨o, h1, h2⟩ := run_split hx2
  refine ⟨_, _, o, heq.symm, ?_, ⟨hv, h1⟩, fun op h => List.mem_of_mem_take h, ?_, ?_⟩
  · have := flatMap_le69 hv
    rw [List.length_take] at this
    omega
  · by_cases hl : B / 69 < ops.length
    · have h8 := run_ge8 hv (fun op h => hs op (by
        rw [List.dropLast_eq_take]
        exact (List.take_subset_take_left ops (by omega)) h)) h1
      rw [List.length_take, List.length_nil] at h8
      omega
    · rw [List.drop_eq_nil_of_le (by omega)] at h2
      cases h2
      omega
  · exact (List.prefix_iff_eq_take.1 (Run.prefix_of h2)).symm

/-- The beginning of a stream, in front of the first changed byte -/
theorem bits_within {c c' : List Byte} {k L : Nat} (heq : c'.take k = c.take k) (hk : k ≤ c.length) {pre : List Op} {Y : List Bool}
    (hb : bytesBits c = pre.flatMap Op.bits ++ Y) (hL : 8 * L ≤ 8 * k) (hpre : (pre.flatMap Op.bits).length ≤ 8 * L) (m : Nat) (hm : L ≤ m) :
    ∃ R, bytesBits (c'.take m) = pre.flatMap Op.bits ++ R := by
  have h1 : c'.take L = c.take L := by
    have := congrArg (List.take L) heq
    rwa [List.take_take, List.take_take, Nat.min_eq_left (by omega)] at this
  have h2 : bytesBits c = bytesBits (c.take L) ++ bytesBits (c.drop L) := by rw [← bytesBits_append, List.take_append_drop]
  have h3 : (c'.take m) = c.take L ++ (c'.take m).drop L := by
    rw [← h1]
    conv_lhs => rw [← List.take_append_drop L (c'.take m)]
    rw [List.take_take, Nat.min_eq_left hm]
  rw [h3, bytesBits_append]
  rw [h2] at hb
  have h4 : (bytesBits (c.take L)).take (pre.flatMap Op.bits).length = pre.flatMap Op.bits := by
    have := congrArg (List.take (pre.flatMap Op.bits).length) hb
    rwa [List.take_append_of_le_length (by rw [length_bytesBits, List.length_take]; omega), List.take_left' rfl] at this
  refine ⟨(bytesBits (c.take L)).drop (pre.flatMap Op.bits).length ++ bytesBits ((c'.take m).drop L), ?_⟩
  rw [← List.append_assoc]
  congr 1
  conv_lhs => rw [← List.take_append_drop (pre.flatMap Op.bits).length (bytesBits (c.take L)), h4]

end Lib842
