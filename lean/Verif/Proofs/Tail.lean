import Verif.Proofs.OptCall
import Verif.Proofs.Prefix
/-!
# What the calls leave behind their result
-/

namespace Lib842
open Spec

/-- `x` keeps the invariant `I`, also when it fails. -/
def Pres {σ α : Type} (I : σ → Prop) (x : M σ α) : Prop :=
  ∀ p, I p → (∀ a p', x p = .ok a p' → I p') ∧ ∀ er p', x p = .err er p' → I p'

namespace Pres
variable {σ α β : Type} {I : σ → Prop}

theorem pure (a : α) : Pres I (Pure.pure a : M σ α) :=
  fun _ hp => ⟨fun _ _ h => (by cases h; exact hp), fun _ _ h => (by cases h)⟩

theorem fail (er : Errno) : Pres I (M.fail er : M σ α) :=
  fun _ hp => ⟨fun _ _ h => (by cases h), fun _ _ h => (by cases h; exact hp)⟩

theorem timeout : Pres I (M.timeout : M σ α) := fun _ _ => ⟨fun _ _ h => (by cases h), fun _ _ h => (by cases h)⟩

theorem get : Pres I (M.get : M σ σ) :=
  fun _ hp => ⟨fun _ _ h => (by cases h; exact hp), fun _ _ h => (by cases h)⟩

theorem access (f : σ → Option α) : Pres I (M.access f) := by
  intro p hp
  unfold M.access
  cases f p with
  | none => exact ⟨fun _ _ h => (by cases h), fun _ _ h => (by cases h)⟩
  | some a => exact ⟨fun _ _ h => (by cases h; exact hp), fun _ _ h => (by cases h)⟩

theorem modify {f : σ → σ} (hf : ∀ p, I p → I (f p)) : Pres I (M.modify f) :=
  fun p hp => ⟨fun _ _ h => (by cases h; exact hf p hp), fun _ _ h => (by cases h)⟩

theorem update {f : σ → Option σ} (hf : ∀ p p', I p → f p = some p' → I p') : Pres I (M.update f) := by
  intro p hp
  unfold M.update
  cases h : f p with
  | none => exact ⟨fun _ _ h => (by cases h), fun _ _ h => (by cases h)⟩
  | some p1 => exact ⟨fun _ _ h' => (by cases h'; exact hf _ _ hp h), fun _ _ h => (by cases h)⟩

theorem bind {x : M σ α} {f : α → M σ β} (hx : Pres I x) (hf : ∀ a, Pres I (f a)) : Pres I (x >>= f) := by
  intro p hp
  rw [M.bind_def]
  cases hr : x p with
  | ok a p1 => exact hf a p1 ((hx p hp).1 a p1 hr)
  | err er p1 => exact ⟨fun _ _ h => (by cases h), fun _ _ h => (by cases h; exact (hx p hp).2 _ _ hr)⟩
  | ub => exact ⟨fun _ _ h => (by cases h), fun _ _ h => (by cases h)⟩
  | timeout => exact ⟨fun _ _ h => (by cases h), fun _ _ h => (by cases h)⟩

theorem ite {c : Prop} [Decidable c] {x y : M σ α} (hx : Pres I x) (hy : Pres I y) : Pres I (if c then x else y) := by
  split
  · exact hx
  · exact hy

theorem ignore {x : M σ Unit} (hx : Pres I x) : Pres I (M.ignore x) := by
  intro p hp
  unfold M.ignore
  cases hr : x p with
  | ok a p1 => exact ⟨fun _ _ h => (by cases h; exact (hx p hp).1 _ _ hr), fun _ _ h => (by cases h)⟩
  | err er p1 => exact ⟨fun _ _ h => (by cases h; exact (hx p hp).2 _ _ hr), fun _ _ h => (by cases h)⟩
  | ub => exact ⟨fun _ _ h => (by cases h), fun _ _ h => (by cases h)⟩
  | timeout => exact ⟨fun _ _ h => (by cases h), fun _ _ h => (by cases h)⟩

theorem doWhile {it : M σ Bool} (h : Pres I it) : ∀ fuel, Pres I (M.doWhile it fuel)
  | 0 => timeout
  | fuel + 1 => by
    rw [M.doWhile]
    exact bind h fun _ => ite (pure _) (doWhile h fuel)

end Pres

/-- If `x` succeeds, `Q` holds. -/
def Post {σ α : Type} (I : σ → Prop) (x : M σ α) (Q : α → σ → Prop) : Prop := ∀ p, I p → ∀ a p', x p = .ok a p' → Q a p'

namespace Post
variable {σ α β : Type} {I : σ → Prop} {Q : α → σ → Prop}

theorem fail (er : Errno) : Post I (M.fail er : M σ α) Q := fun _ _ _ _ h => by cases h

theorem pure {a : α} (h : ∀ p, I p → Q a p) : Post I (Pure.pure a : M σ α) Q := fun p hp _ _ h' => by cases h'; exact h p hp

theorem bind {x : M σ β} {f : β → M σ α} (hx : Pres I x) (hf : ∀ a, Post I (f a) Q) : Post I (x >>= f) Q := by
  intro p hp a p' h
  rw [M.bind_def] at h
  cases hr : x p with
  | ok b p1 => rw [hr] at h; exact hf b p1 ((hx p hp).1 b p1 hr) a p' h
  | err er p1 => rw [hr] at h; cases h
  | ub => rw [hr] at h; cases h
  | timeout => rw [hr] at h; cases h

theorem get {f : σ → M σ α} (hf : ∀ p, Post (fun q => I q ∧ q = p) (f p) Q) : Post I (M.get >>= f) Q := by
  intro p hp a p' h
  exact hf p p ⟨hp, rfl⟩ a p' h

theorem ite {c : Prop} [Decidable c] {x y : M σ α} (hx : Post I x Q) (hy : Post I y Q) : Post I (if c then x else y) Q := by
  split
  · exact hx
  · exact hy

end Post

theorem writeBytes_length {m m' bs : List Byte} {i : Nat} (h : writeBytes m i bs = some m') :
    m'.length = m.length ∧ i + bs.length ≤ m.length := by
  unfold writeBytes at h
  split at h
  · cases h
    refine ⟨?_, by assumption⟩
    simp only [List.length_append, List.length_take, List.length_drop]; omega
  · cases h

theorem writeBytes_drop {m m' bs : List Byte} {i : Nat} (h : writeBytes m i bs = some m') {k : Nat} (hk : i + bs.length ≤ k) :
    m'[k]? = m[k]? := by
  unfold writeBytes at h
  split at h
  · cases h
    rw [List.getElem?_append_right (by simp; omega), List.getElem?_drop]
    congr 1
    simp only [List.length_append, List.length_take]; omega
  · cases h

theorem writeBytes_mid {m m' bs : List Byte} {i : Nat} (h : writeBytes m i bs = some m') {k : Nat} (hk : k < bs.length) :
    m'[i + k]? = bs[k]? := by
  unfold writeBytes at h
  split at h
  · cases h
    rw [List.getElem?_append_left (by simp; omega), List.getElem?_append_right (by simp), List.length_take,
      Nat.min_eq_left (by omega), Nat.add_sub_cancel_left]
  · cases h

/-! ## The decompressors -/

/-- Behind the output everything is as it was at the beginning (`b0`). -/
structure DTail (b0 : List Byte) (p : Decomp) : Prop where
  size : p.buf.length = b0.length
  out : p.out + p.olen = b0.length
  tail : p.buf.drop p.out = b0.drop p.out

theorem drop_write {m m' bs b0 : List Byte} {i : Nat} (h : writeBytes m i bs = some m') (ht : m.drop i = b0.drop i) :
    m'.drop (i + bs.length) = b0.drop (i + bs.length) := by
  have h1 : m'.drop (i + bs.length) = m.drop (i + bs.length) := by
    apply List.ext_getElem?
    intro k
    rw [List.getElem?_drop, List.getElem?_drop, writeBytes_drop h (by omega)]
  rw [h1, ← List.drop_drop, ht, List.drop_drop]

theorem pres_emit (b0 bs : List Byte) : Pres (DTail b0) (emit bs) := by
  intro p hp
  unfold emit
  rw [M.bind_def]
  unfold M.update
  simp only
  cases hw : writeBytes p.buf p.out bs with
  | none => exact ⟨fun _ _ h => (by cases h), fun _ _ h => (by cases h)⟩
  | some m =>
    refine ⟨fun _ _ h => ?_, fun _ _ h => (by cases h)⟩
    cases h
    have h1 := writeBytes_length hw
    have h2 := hp.out
    have h3 := hp.size
    exact ⟨by simp only; omega, by simp only; omega, drop_write hw hp.tail⟩

theorem pres_splitNextBits {b0 : List Byte} {f : Nat → M Decomp (BitVec 64)} (hf : ∀ n, Pres (DTail b0) (f n)) (n s : Nat) :
    Pres (DTail b0) (splitNextBits f n s) := by
  unfold splitNextBits
  exact .ite (.fail _) (.bind (hf _) fun _ => .bind (hf _) fun _ => .pure _)

theorem pres_nextBitsF (b0 : List Byte) (e : Endian) : ∀ fuel n : Nat, Pres (DTail b0) (nextBitsF e fuel n)
  | 0, _ => .timeout
  | fuel + 1, n => by
    unfold nextBitsF
    have ih := pres_splitNextBits (pres_nextBitsF b0 e fuel)
    refine .bind .get fun p => .ite (.fail _) (.ite (ih _ _) (.ite (ih _ _) (.ite (ih _ _) (.ite (.fail _)
      (.bind (.access _) fun _ => .bind (.modify fun p hp => ?_) fun _ => .pure _)))))
    by_cases h : p.bit + n > 7 <;> simp only [h, if_true, if_false] <;> exact ⟨hp.size, hp.out, hp.tail⟩

theorem pres_nextBits (b0 : List Byte) (e : Endian) (n : Nat) : Pres (DTail b0) (nextBits e n) := pres_nextBitsF b0 e _ n

theorem pres_doData (b0 : List Byte) (e : Endian) (n : Nat) : Pres (DTail b0) (doData e n) := by
  unfold doData
  exact .bind .get fun _ => .ite (.fail _) (.bind (pres_nextBits b0 e _) fun _ =>
    .ite (pres_emit _ _) (.ite (pres_emit _ _) (.ite (pres_emit _ _) (.fail _))))

theorem pres_doIndexN (b0 : List Byte) (e : Endian) (size bits fsize : Nat) : Pres (DTail b0) (doIndexN e size bits fsize) := by
  unfold doIndexN
  exact .bind .get fun _ => .bind (pres_nextBits b0 e _) fun _ => .ite (.fail _)
    (.bind .get fun _ => .ite (.fail _) (.bind (.access _) fun _ => pres_emit _ _))

theorem pres_doIndex (b0 : List Byte) (e : Endian) (n : Nat) : Pres (DTail b0) (doIndex e n) := by
  unfold doIndex
  exact .ite (pres_doIndexN b0 e _ _ _) (.ite (pres_doIndexN b0 e _ _ _) (.ite (pres_doIndexN b0 e _ _ _) (.fail _)))

theorem pres_doActions (b0 : List Byte) (e : Endian) : ∀ ops : List Nat, Pres (DTail b0) (doActions e ops)
  | [] => .pure _
  | op :: ops => by
    unfold doActions
    have ih := pres_doActions b0 e ops
    exact .ite (.bind (pres_doData b0 e _) fun _ => ih) (.ite (.bind (pres_doIndex b0 e _) fun _ => ih) (.ite ih (.bind (.fail _) fun _ => ih)))

theorem pres_doOp (b0 : List Byte) (e : Endian) (o : Nat) : Pres (DTail b0) (doOp e o) := by
  unfold doOp
  exact .ite (.fail _) (.bind (.access _) fun _ => pres_doActions b0 e _)

theorem pres_doRepeat (b0 : List Byte) : ∀ n : Nat, Pres (DTail b0) (doRepeat n)
  | 0 => .pure _
  | n + 1 => by
    unfold doRepeat
    exact .bind (.access _) fun _ => .bind (pres_emit _ _) fun _ => pres_doRepeat b0 n

theorem pres_doShort (b0 : List Byte) (e : Endian) : ∀ n : Nat, Pres (DTail b0) (doShort e n)
  | 0 => .pure _
  | n + 1 => by
    unfold doShort
    exact .bind (pres_nextBits b0 e _) fun _ => .bind (pres_emit _ _) fun _ => pres_doShort b0 e n

theorem pres_decompOp (b0 : List Byte) (e : Endian) (op : Nat) : Pres (DTail b0) (decompOp e op) := by
  unfold decompOp
  exact .ite (.bind (pres_nextBits b0 e _) fun _ => .bind .get fun _ => .ite (.fail _) (.ite (.fail _) (pres_doRepeat b0 _)))
    (.ite (.bind .get fun _ => .ite (.fail _) (pres_emit _ _))
    (.ite (.bind (pres_nextBits b0 e _) fun _ => .ite (.fail _) (.bind .get fun _ => .ite (.fail _) (pres_doShort b0 e _)))
      (pres_doOp b0 e op)))

theorem pres_decompLoop (b0 : List Byte) (e : Endian) : ∀ fuel : Nat, Pres (DTail b0) (decompLoop e fuel)
  | 0 => .timeout
  | fuel + 1 => by
    unfold decompLoop
    exact .bind (pres_nextBits b0 e _) fun _ => .ite (.pure _) (.bind (pres_decompOp b0 e _) fun _ => pres_decompLoop b0 e fuel)

theorem sw_tail (e : Endian) (addr fuel : Nat) (inp buf : List Byte) {n : Nat} {b : List Byte}
    (h : sw842DecompressF fuel e addr inp buf = .ret none n b) : b.drop n = buf.drop n := by
  unfold sw842DecompressF at h
  split at h
  · rename_i m p hm
    cases h
    have h1 : DTail buf p := by
      have hk : Pres (DTail buf) (decompBody e addr fuel buf.length) := by
        unfold decompBody
        exact .bind (pres_decompLoop buf e fuel) fun _ => .bind (pres_nextBits buf e _) fun _ => .bind .get fun _ => .bind (.access _) fun _ =>
          .ite (.fail _) (.ite (.fail _) (.pure _))
      refine (hk _ ?_).1 _ _ hm
      exact ⟨rfl, by simp [decompInit], rfl⟩
    have h2 : n = buf.length - p.olen := by
      unfold decompBody at hm
      rw [M.bind_def] at hm
      split at hm <;> try cases hm
      rw [M.bind_def] at hm
      split at hm <;> try cases hm
      rw [M.get_bind_apply, M.bind_def] at hm
      unfold M.access at hm
      split at hm <;> try cases hm
      rename_i heq
      split at heq <;> cases heq
      split at hm
      · cases hm
      split at hm
      · cases hm
      cases hm
      rfl
    have h3 := h1.out
    rw [h2, show buf.length - p.olen = p.out by omega]
    exact h1.tail
  all_goals cases h

/-! ### The optimised decompressor -/

/-- Behind the output everything is as it was at the beginning (`b0`). -/
def OTail (b0 : List Byte) (p : ODecomp) : Prop := p.buf.drop p.out = b0.drop p.out

theorem pres_setError (b0 : List Byte) (er : Errno) : Pres (OTail b0) (M.modify (ODecomp.setError er)) :=
  .modify fun p hp => by unfold ODecomp.setError; split <;> exact hp

theorem pres_readWord (b0 : List Byte) (e : Endian) : Pres (OTail b0) (readWord e) := by
  unfold readWord
  exact .bind .get fun _ => .ite (.bind (pres_setError _ _) fun _ => .pure _)
    (.bind (.access _) fun _ => .bind (.modify fun _ hp => hp) fun _ => .pure _)

theorem pres_readBits (b0 : List Byte) (e : Endian) (n : Nat) : Pres (OTail b0) (readBits e n) := by
  unfold readBits
  exact .bind .get fun _ => .ite (.bind (pres_readWord b0 e) fun _ => .bind (.access _) fun _ =>
    .bind (.modify fun _ hp => hp) fun _ => .pure _)
    (.bind (.access _) fun _ => .bind (.modify fun _ hp => hp) fun _ => .pure _)

theorem pres_oemit (b0 bs : List Byte) : Pres (OTail b0) (oemit bs) := by
  intro p hp
  unfold oemit
  rw [M.bind_def]
  unfold M.update
  simp only
  cases hw : writeBytes p.buf p.out bs with
  | none => exact ⟨fun _ _ h => (by cases h), fun _ _ h => (by cases h)⟩
  | some m =>
    refine ⟨fun _ _ h => ?_, fun _ _ h => (by cases h)⟩
    cases h
    exact drop_write hw hp

theorem pres_odoData (b0 : List Byte) (e : Endian) (n : Nat) (d : BitVec 64) : Pres (OTail b0) (odoData e n d) := by
  unfold odoData
  refine .ite (pres_oemit _ _) (.ite (pres_oemit _ _) (.ite (pres_oemit _ _) (.modify fun p hp => ?_)))
  have := congrArg (List.drop n) hp
  rw [List.drop_drop, List.drop_drop] at this
  exact this

theorem pres_odoIndex (b0 : List Byte) (size index fsize : Nat) : Pres (OTail b0) (odoIndex size index fsize) := by
  unfold odoIndex
  exact .bind .get fun _ => .ite (pres_setError _ _) (.bind (.access _) fun _ => pres_oemit _ _)

theorem pres_optSteps (b0 : List Byte) (e : Endian) (rep : BitVec 64) : ∀ ss : List OptStep, Pres (OTail b0) (optSteps e rep ss)
  | [] => .pure _
  | s :: ss => by
    unfold optSteps
    refine .bind ?_ fun _ => pres_optSteps b0 e rep ss
    cases s with
    | data => exact .bind (.access _) fun _ => pres_odoData b0 e _ _
    | index => exact .bind (.access _) fun _ => pres_odoIndex b0 _ _ _

theorem pres_checkError (b0 : List Byte) : Pres (OTail b0) checkError := by
  unfold checkError
  refine .bind .get fun p => ?_
  cases p.errorcode with
  | none => exact .pure _
  | some er => exact .fail _

theorem pres_odoRepeat (b0 : List Byte) : ∀ n : Nat, Pres (OTail b0) (odoRepeat n)
  | 0 => .pure _
  | n + 1 => by
    unfold odoRepeat
    exact .bind (.access _) fun _ => .bind (pres_oemit _ _) fun _ => pres_odoRepeat b0 n

theorem pres_odoOp (b0 : List Byte) (e : Endian) (op : Nat) : Pres (OTail b0) (odoOp e op) := by
  unfold odoOp
  split
  · exact .bind (pres_readBits b0 e _) fun _ => pres_optSteps b0 e _ _
  · exact .ite (.bind (pres_readBits b0 e _) fun _ => .bind (pres_checkError b0) fun _ => .bind .get fun _ =>
      .ite (.fail _) (.ite (.fail _) (pres_odoRepeat b0 _))) (.ite (pres_oemit _ _) (.fail _))

theorem pres_optIter (b0 : List Byte) (e : Endian) : Pres (OTail b0) (optIter e) := by
  unfold optIter
  exact .bind (pres_readBits b0 e _) fun _ => .bind (pres_checkError b0) fun _ => .bind .get fun _ => .ite (.fail _)
    (.ite (.pure _) (.bind (pres_odoOp b0 e _) fun _ => .bind (pres_checkError b0) fun _ => .pure _))

theorem opt_tail (e : Endian) (ain aout fuel : Nat) (inp buf : List Byte) {n : Nat} {b : List Byte}
    (h : optsw842DecompressF fuel e ain aout inp buf = .ret none n b) : b.drop n = buf.drop n := by
  unfold optsw842DecompressF at h
  split at h
  · exact sw_tail _ _ _ _ _ h
  split at h
  · rename_i m p hm
    cases h
    have h1 : OTail buf p ∧ n = p.out := by
      unfold optBody at hm
      rw [M.bind_def] at hm
      split at hm <;> try cases hm
      rename_i p1 hl
      have i1 := (Pres.doWhile (pres_optIter buf e) fuel (optInit inp buf) (show OTail buf (optInit inp buf) from rfl)).1 _ _ hl
      rw [M.bind_def] at hm
      split at hm <;> try cases hm
      rename_i p2 h2
      have i2 := (pres_readBits buf e 32 _ i1).1 _ _ h2
      rw [M.bind_def] at hm
      split at hm <;> try cases hm
      rename_i p3 h3
      have i3 := (pres_checkError buf _ i2).1 _ _ h3
      rw [M.get_bind_apply, M.bind_def] at hm
      unfold M.access at hm
      split at hm <;> try cases hm
      rename_i heq
      split at heq <;> cases heq
      split at hm
      · cases hm
      cases hm
      exact ⟨i3, rfl⟩
    rw [h1.2]
    exact h1.1
  all_goals cases h

/-! ## The serial compressor -/

theorem access_bind_none {σ α β : Type} {g : σ → Option α} {f : α → M σ β} {s : σ} (h : g s = none) : (M.access g >>= f) s = .ub := by
  rw [M.bind_def]; unfold M.access; rw [h]

theorem update_bind_none {σ β : Type} {g : σ → Option σ} {f : Unit → M σ β} {s : σ} (h : g s = none) : (M.update g >>= f) s = .ub := by
  rw [M.bind_def]; unfold M.update; rw [h]

theorem extract_low (o d : BitVec 64) {k s : Nat} (hk : s + 8 ≤ k) (hk' : k ≤ 56) : (o <<< 56 ||| d <<< k).extractLsb' s 8 = 0#8 := by
  apply BitVec.eq_of_getLsbD_eq
  intro i hi
  simp only [BitVec.getLsbD_extractLsb', BitVec.getLsbD_or, BitVec.getLsbD_shiftLeft, BitVec.getLsbD_zero]
  simp
  intro _
  exact ⟨fun _ h => absurd h (by omega), fun _ h => absurd h (by omega)⟩

theorem extract_low32 (o d : BitVec 64) : ((o <<< 24 ||| d <<< 8).setWidth 32 : BitVec 32).extractLsb' 0 8 = 0#8 := by
  apply BitVec.eq_of_getLsbD_eq
  intro i hi
  simp only [BitVec.getLsbD_extractLsb', BitVec.getLsbD_setWidth, BitVec.getLsbD_or, BitVec.getLsbD_shiftLeft, BitVec.getLsbD_zero]
  simp
  intro _ _
  exact ⟨fun _ h => absurd h (by omega), fun _ h => absurd h (by omega)⟩

/-- What a store of `len` bytes leaves behind the first `c` of them, if the others are zero. -/
theorem write_near {m m' bs : List Byte} {i c : Nat} (h : writeBytes m i bs = some m') (hz : ∀ k, c ≤ k → k < bs.length → bs[k]? = some 0#8)
    (h3 : bs.length ≤ c + 3) :
    (∀ k, i + c ≤ k → m'[k]? = m[k]? ∨ m'[k]? = some 0#8) ∧ ∀ k, i + c + 3 ≤ k → m'[k]? = m[k]? := by
  refine ⟨fun k hk => ?_, fun k hk => writeBytes_drop h (by omega)⟩
  by_cases hlt : k < i + bs.length
  · right
    obtain ⟨j, rfl⟩ : ∃ j, k = i + j := ⟨k - i, by omega⟩
    rw [writeBytes_mid h (by omega), hz j (by omega) (by omega)]
  · exact .inl (writeBytes_drop h (by omega))

theorem putBits_near (e : Endian) {m m' : List Byte} {out bits : Nat} {o d : BitVec 64} (h : putBits e m out bits o d = some m')
    (h1 : 1 ≤ bits) (h64 : bits ≤ 64) :
    m'.length = m.length ∧ (∀ k, out + (bits + 7) / 8 ≤ k → m'[k]? = m[k]? ∨ m'[k]? = some 0#8) ∧
      ∀ k, out + (bits + 7) / 8 + 3 ≤ k → m'[k]? = m[k]? := by
  unfold putBits store16 store32 store64 at h
  simp only [wordBytes16_swap, wordBytes32_swap, wordBytes64_swap] at h
  have fin : ∀ bs : List Byte, writeBytes m out bs = some m' → (∀ k, (bits + 7) / 8 ≤ k → k < bs.length → bs[k]? = some 0#8) →
      bs.length ≤ (bits + 7) / 8 + 3 → m'.length = m.length ∧ (∀ k, out + (bits + 7) / 8 ≤ k → m'[k]? = m[k]? ∨ m'[k]? = some 0#8) ∧
      ∀ k, out + (bits + 7) / 8 + 3 ≤ k → m'[k]? = m[k]? :=
    fun bs h hz h3 => ⟨(writeBytes_length h).1, write_near h hz h3⟩
  split at h
  · exact fin _ h (fun k hk hl => by simp only [List.length_cons, List.length_nil] at hl; omega)
      (by simp only [List.length_cons, List.length_nil]; omega)
  split at h
  · exact fin _ h (fun k hk hl => by rw [length_wordBytes16] at hl; omega) (by rw [length_wordBytes16]; omega)
  split at h
  · refine fin _ h (fun k hk hl => ?_) (by rw [length_wordBytes32]; omega)
    rw [length_wordBytes32] at hl
    have : k = 3 := by omega
    subst this
    simp only [wordBytes32, List.getElem?_cons_succ, List.getElem?_cons_zero, extract_low32]
  split at h
  · exact fin _ h (fun k hk hl => by rw [length_wordBytes32] at hl; omega) (by rw [length_wordBytes32]; omega)
  split at h
  · refine fin _ h (fun k hk hl => ?_) (by rw [length_wordBytes64]; omega)
    rw [length_wordBytes64] at hl
    have : k = 5 ∨ k = 6 ∨ k = 7 := by omega
    rcases this with rfl | rfl | rfl <;>
      simp only [wordBytes64, List.getElem?_cons_succ, List.getElem?_cons_zero] <;> rw [extract_low _ _ (by omega) (by omega)]
  split at h
  · refine fin _ h (fun k hk hl => ?_) (by rw [length_wordBytes64]; omega)
    rw [length_wordBytes64] at hl
    have : k = 6 ∨ k = 7 := by omega
    rcases this with rfl | rfl <;>
      simp only [wordBytes64, List.getElem?_cons_succ, List.getElem?_cons_zero] <;> rw [extract_low _ _ (by omega) (by omega)]
  split at h
  · refine fin _ h (fun k hk hl => ?_) (by rw [length_wordBytes64]; omega)
    rw [length_wordBytes64] at hl
    have : k = 7 := by omega
    subst this
    simp only [wordBytes64, List.getElem?_cons_succ, List.getElem?_cons_zero]
    rw [extract_low _ _ (by omega) (by omega)]
  · exact fin _ h (fun k hk hl => by rw [length_wordBytes64] at hl; omega) (by rw [length_wordBytes64]; omega)

/-- Behind the bytes that are in use there are at most three zeros; everything else is as it was at the beginning (`b0`). -/
structure WTail (b0 : List Byte) (w : Writer) : Prop where
  size : w.buf.length = b0.length
  len : w.out + w.olen = b0.length
  bit : w.bit < 8
  part : w.bit ≠ 0 → 1 ≤ w.olen
  near : ∀ k, (8 * w.out + w.bit + 7) / 8 ≤ k → w.buf[k]? = b0[k]? ∨ w.buf[k]? = some 0#8
  far : ∀ k, (8 * w.out + w.bit + 7) / 8 + 3 ≤ k → w.buf[k]? = b0[k]?

theorem pres_addBitsF (b0 : List Byte) (e : Endian) : ∀ (fuel : Nat) (d : BitVec 64) (n : Nat), 1 ≤ n → Pres (WTail b0) (addBitsF e fuel d n)
  | 0, _, _, _ => .timeout
  | fuel + 1, d, n, hn => by
    have ih := pres_addBitsF b0 e fuel
    have split : ∀ s, 1 ≤ s → Pres (WTail b0) (splitAddBits (addBitsF e fuel) d n s) := by
      intro s hs
      unfold splitAddBits
      by_cases h : n ≤ s
      · rw [if_pos h]; exact .fail _
      · rw [if_neg h]; exact .bind (ih _ _ (by omega)) fun _ => ih _ _ hs
    intro w hw
    unfold addBitsF
    rw [M.get_bind_apply]
    simp only
    split
    · exact Pres.fail _ w hw
    split
    · exact split 32 (by omega) w hw
    split
    · exact split 16 (by omega) w hw
    split
    · exact split 8 (by omega) w hw
    split
    · exact Pres.fail _ w hw
    rename_i h64 hb64 _ _ hroom
    cases hc : w.buf[w.out]? with
    | none =>
      rw [access_bind_none (g := fun p : Writer => p.buf[p.out]?) hc]
      exact ⟨fun _ _ h => (by cases h), fun _ _ h => (by cases h)⟩
    | some cur =>
    rw [M.access_bind_some (g := fun p : Writer => p.buf[p.out]?) hc]
    cases hm : bmask[w.bit]? with
    | none =>
      rw [access_bind_none (g := fun _ : Writer => none) rfl]
      exact ⟨fun _ _ h => (by cases h), fun _ _ h => (by cases h)⟩
    | some mask =>
    rw [M.access_bind_some (g := fun _ => some mask) rfl]
    cases hp : putBits e w.buf w.out (w.bit + n) ((cur &&& mask).setWidth 64) (d <<< (roundUp8 (w.bit + n) - (w.bit + n))) with
    | none =>
      rw [update_bind_none (by simp only [hp]; rfl)]
      exact ⟨fun _ _ h => (by cases h), fun _ _ h => (by cases h)⟩
    | some m =>
    rw [M.update_bind_some (s' := { w with buf := m }) (by simp only [hp]; rfl), M.modify_apply]
    refine ⟨fun _ _ h => ?_, fun _ _ h => (by cases h)⟩
    obtain ⟨p1, p2, p3⟩ := putBits_near e hp (by omega) (by omega)
    have hlen := hw.len
    have hbit := hw.bit
    have hsize := hw.size
    have hr : (w.bit + n + 7) / 8 ≤ w.olen := by unfold divRoundUp at hroom; omega
    have near : ∀ k, (8 * w.out + (w.bit + n) + 7) / 8 ≤ k → m[k]? = b0[k]? ∨ m[k]? = some 0#8 := by
      intro k hk
      rcases p2 k (by omega) with h | h
      · rw [h]; exact hw.near k (by omega)
      · exact .inr h
    have far : ∀ k, (8 * w.out + (w.bit + n) + 7) / 8 + 3 ≤ k → m[k]? = b0[k]? := by
      intro k hk
      rw [p3 k (by omega), hw.far k (by omega)]
    cases h
    simp only
    split
    · have e1 : 8 * (w.out + (w.bit + n) / 8) + (w.bit + n) % 8 = 8 * w.out + (w.bit + n) := by omega
      refine ⟨by simp only; omega, by simp only; omega, by simp only; omega, fun h => by simp only at h ⊢; omega, ?_, ?_⟩
      · simp only [e1]; exact near
      · simp only [e1]; exact far
    · exact ⟨by simp only; omega, by simp only; omega, by simp only; omega, fun _ => by simp only; omega, near, far⟩

theorem pres_addBits (b0 : List Byte) (e : Endian) (d : BitVec 64) {n : Nat} (hn : 1 ≤ n) : Pres (WTail b0) (addBits e d n) :=
  pres_addBitsF b0 e _ d n hn

/-- The invariant in the whole state -/
def CTail (b0 : List Byte) (p : Comp) : Prop := WTail b0 p.w

theorem pres_liftW {α : Type} {b0 : List Byte} {x : M Writer α} (hx : Pres (WTail b0) x) : Pres (CTail b0) (liftW x) := by
  intro p hp
  unfold liftW
  cases hr : x p.w with
  | ok a w => exact ⟨fun _ _ h => (by cases h; exact (hx _ hp).1 _ _ hr), fun _ _ h => (by cases h)⟩
  | err er w => exact ⟨fun _ _ h => (by cases h), fun _ _ h => (by cases h; exact (hx _ hp).2 _ _ hr)⟩
  | ub => exact ⟨fun _ _ h => (by cases h), fun _ _ h => (by cases h)⟩
  | timeout => exact ⟨fun _ _ h => (by cases h), fun _ _ h => (by cases h)⟩

/-- A step that does not touch the output -/
theorem pres_other {b0 : List Byte} {f : Comp → Option Comp} (hf : ∀ p p', f p = some p' → p'.w = p.w) : Pres (CTail b0) (M.update f) :=
  .update fun p p' hp h => by unfold CTail; rw [hf p p' h]; exact hp

theorem map_w {α : Type} {o : Option α} {f : α → Comp} {p p' : Comp} (h : o.map f = some p') (hf : ∀ a, (f a).w = p.w) : p'.w = p.w := by
  cases o with
  | none => cases h
  | some a => cases h; exact hf a

theorem pres_addB (b0 : List Byte) (e : Endian) (d : BitVec 64) {n : Nat} (hn : 1 ≤ n) : Pres (CTail b0) (liftW (addBits e d n)) :=
  pres_liftW (pres_addBits b0 e d hn)

theorem pres_addActions (b0 : List Byte) (e : Endian) : ∀ (ts : List Nat) (b : Nat), Pres (CTail b0) (addActions e ts b)
  | [], _ => .pure _
  | t :: ts, b => by
    have ih := pres_addActions b0 e ts
    have fin : ∀ inv : Bool, Pres (CTail b0) (if inv = true then M.fail .EINVAL else addActions e ts (b + amount t)) :=
      fun _ => .ite (.fail _) (ih _)
    have P : ∀ inv : Bool, Pres (CTail b0) (Pure.pure inv >>= fun inv : Bool => if inv = true then M.fail .EINVAL else addActions e ts (b + amount t)) :=
      fun _ => .bind (.pure _) fun _ => fin _
    have Q : ∀ {α : Type} (f : Comp → Comp → Option α) (g : α → BitVec 64) (n : Nat) (inv : Bool), 1 ≤ n →
        Pres (CTail b0) (M.get >>= fun p => M.access (f p) >>= fun v => liftW (addBits e (g v) n) >>= fun _ => Pure.pure inv >>= fun inv : Bool =>
          (if inv = true then M.fail .EINVAL else addActions e ts (b + amount t))) :=
      fun f g n inv hn => .bind .get fun _ => .bind (.access _) fun _ => .bind (pres_addB b0 e _ hn) fun _ => P _
    unfold addActions
    dsimp only
    refine .ite (.ite (P _) (.ite (Q _ _ _ _ (by omega)) (.ite (Q _ (fun d => d) _ _ (by omega)) (P _)))) (.ite (.ite (Q _ _ _ _ (by omega)) (.ite (P _) (.ite (Q _ _ _ _ (by omega))
      (.ite (Q _ _ _ _ (by omega)) (P _))))) (.ite (.ite (Q _ _ _ _ (by omega)) (.ite (Q _ _ _ _ (by omega)) (P _))) (.ite (P _) (P _))))

theorem pres_addTemplate (b0 : List Byte) (e : Endian) (c : Nat) : Pres (CTail b0) (addTemplate e c) := by
  unfold addTemplate
  exact .ite (.fail _) (.bind (.access _) fun _ => .bind (.access _) fun _ => .bind (pres_addB b0 e _ (by omega)) fun _ =>
    .bind (pres_addActions b0 e _ _) fun _ => .ite (.fail _) (.pure _))

theorem pres_addRepeat (b0 : List Byte) (e : Endian) (r : Nat) : Pres (CTail b0) (addRepeat e r) := by
  unfold addRepeat
  exact .ite (.fail _) (.bind (pres_addB b0 e _ (by omega)) fun _ => pres_addB b0 e _ (by omega))

theorem pres_addShortBytes (b0 : List Byte) (e : Endian) : ∀ n i : Nat, Pres (CTail b0) (addShortBytes e n i)
  | 0, _ => .pure _
  | n + 1, i => by
    unfold addShortBytes
    exact .bind (.access _) fun _ => .bind (pres_addB b0 e _ (by omega)) fun _ => pres_addShortBytes b0 e n _

theorem pres_addShortData (b0 : List Byte) (e : Endian) (b : Nat) : Pres (CTail b0) (addShortData e b) := by
  unfold addShortData
  exact .ite (.fail _) (.bind (pres_addB b0 e _ (by omega)) fun _ => .bind (pres_addB b0 e _ (by omega)) fun _ => pres_addShortBytes b0 e _ _)

theorem pres_findIndex8 (b0 : List Byte) (n : Nat) : Pres (CTail b0) (findIndex8 n) := by
  unfold findIndex8
  refine .bind (pres_other fun p p' h => map_w h fun _ => rfl) fun _ => .bind .get fun p => .bind (.access _) fun k => ?_
  cases p.ht8 k with
  | nil => exact .bind (.access _) fun _ => .pure _
  | cons => exact .bind (pres_other fun p p' h => map_w h fun _ => rfl) fun _ => .bind (.access _) fun _ => .pure _

theorem pres_findIndex4 (b0 : List Byte) (n : Nat) : Pres (CTail b0) (findIndex4 n) := by
  unfold findIndex4
  refine .bind (pres_other fun p p' h => map_w h fun _ => rfl) fun _ => .bind .get fun p => .bind (.access _) fun k => ?_
  cases p.ht4 k with
  | nil => exact .bind (.access _) fun _ => .pure _
  | cons => exact .bind (pres_other fun p p' h => map_w h fun _ => rfl) fun _ => .bind (.access _) fun _ => .pure _

theorem pres_findIndex2 (b0 : List Byte) (n : Nat) : Pres (CTail b0) (findIndex2 n) := by
  unfold findIndex2
  refine .bind (pres_other fun p p' h => map_w h fun _ => rfl) fun _ => .bind .get fun p => .bind (.access _) fun k => ?_
  cases p.ht2 k with
  | nil => exact .bind (.access _) fun _ => .pure _
  | cons => exact .bind (pres_other fun p p' h => map_w h fun _ => rfl) fun _ => .bind (.access _) fun _ => .pure _

theorem pres_checkActions (b0 : List Byte) : ∀ (ts : List Nat) (b : Nat), Pres (CTail b0) (checkActions ts b)
  | [], _ => .pure _
  | t :: ts, b => by
    have ih := pres_checkActions b0 ts
    have fin : ∀ m : Bool, Pres (CTail b0) (if m = true then checkActions ts (b + amount t) else Pure.pure false) :=
      fun _ => .ite (ih _) (.pure _)
    unfold checkActions checkIndex2 checkIndex4 checkIndex8
    dsimp only
    exact .ite (.ite (.bind (.bind (.access _) fun _ => .ite (pres_findIndex2 b0 _) (.pure _)) fun _ => fin _)
      (.ite (.bind (.bind (.access _) fun _ => .ite (pres_findIndex4 b0 _) (.pure _)) fun _ => fin _)
      (.ite (.bind (.bind (.access _) fun _ => .ite (pres_findIndex8 b0 _) (.pure _)) fun _ => fin _)
      (.bind (.pure _) fun _ => fin _)))) (ih _)

theorem pres_findTemplate (b0 : List Byte) : ∀ k i : Nat, Pres (CTail b0) (findTemplate k i)
  | 0, _ => .pure _
  | k + 1, i => by
    unfold findTemplate checkTemplate
    exact .bind (.ite (.pure _) (.bind (.access _) fun _ => pres_checkActions b0 _ _)) fun _ => .ite (.pure _) (pres_findTemplate b0 k _)

theorem pres_getNextData (b0 : List Byte) (e : Endian) : Pres (CTail b0) (getNextData e) := by
  unfold getNextData
  exact .bind .get fun _ => .bind (.access _) fun _ => .bind (.access _) fun _ => .bind (.access _) fun _ => .bind (.access _) fun _ =>
    .bind (.access _) fun _ => .bind (.access _) fun _ => .bind (.access _) fun _ => .modify fun _ hp => hp

theorem pres_replaceHash8 (b0 : List Byte) (i d : Nat) : Pres (CTail b0) (replaceHash8 i d) := by
  unfold replaceHash8
  exact .bind .get fun _ => .bind (.access _) fun _ => .bind (.modify fun _ hp => hp) fun _ => .bind (.access _) fun _ =>
    .bind (pres_other fun p p' h => map_w h fun _ => rfl) fun _ => .modify fun _ hp => hp

theorem pres_replaceHash4 (b0 : List Byte) (i d : Nat) : Pres (CTail b0) (replaceHash4 i d) := by
  unfold replaceHash4
  exact .bind .get fun _ => .bind (.access _) fun _ => .bind (.modify fun _ hp => hp) fun _ => .bind (.access _) fun _ =>
    .bind (pres_other fun p p' h => map_w h fun _ => rfl) fun _ => .modify fun _ hp => hp

theorem pres_replaceHash2 (b0 : List Byte) (i d : Nat) : Pres (CTail b0) (replaceHash2 i d) := by
  unfold replaceHash2
  exact .bind .get fun _ => .bind (.access _) fun _ => .bind (.modify fun _ hp => hp) fun _ => .bind (.access _) fun _ =>
    .bind (pres_other fun p p' h => map_w h fun _ => rfl) fun _ => .modify fun _ hp => hp

theorem pres_updateHashtables (b0 : List Byte) : Pres (CTail b0) updateHashtables := by
  unfold updateHashtables
  exact .bind .get fun _ => .bind (pres_replaceHash8 b0 _ _) fun _ => .bind (pres_replaceHash4 b0 _ _) fun _ =>
    .bind (pres_replaceHash4 b0 _ _) fun _ => .bind (pres_replaceHash2 b0 _ _) fun _ => .bind (pres_replaceHash2 b0 _ _) fun _ =>
    .bind (pres_replaceHash2 b0 _ _) fun _ => pres_replaceHash2 b0 _ _

theorem pres_processNext (b0 : List Byte) (e : Endian) : Pres (CTail b0) (processNext e) := by
  unfold processNext
  exact .bind (.modify fun _ hp => hp) fun _ => .bind (pres_findTemplate b0 _ _) fun _ => pres_addTemplate b0 e _

theorem pres_compStep (b0 : List Byte) (e : Endian) (next last : BitVec 64) (rc : Nat) : Pres (CTail b0) (compStep e next last rc) := by
  unfold compStep
  have put : ∀ rc : Nat, Pres (CTail b0) (if next = 0#64 then liftW (addBits e 0x1C#64 5) >>= fun _ => Pure.pure rc else processNext e >>= fun _ => Pure.pure rc) :=
    fun _ => .ite (.bind (pres_addB b0 e _ (by omega)) fun _ => .pure _) (.bind (pres_processNext b0 e) fun _ => .pure _)
  dsimp only
  exact .ite (.pure _) (.ite (.bind (.ignore (pres_addRepeat b0 e _)) fun _ => .ite (.pure _) (put _)) (put _))

theorem pres_compLoop (b0 : List Byte) (e : Endian) : ∀ (fuel : Nat) (last : BitVec 64) (rc : Nat), Pres (CTail b0) (compLoop e fuel last rc)
  | 0, _, _ => .timeout
  | fuel + 1, last, rc => by
    unfold compLoop
    exact .bind .get fun _ => .ite (.bind (.access _) fun _ => .bind (pres_getNextData b0 e) fun _ => .bind (pres_compStep b0 e _ _ _) fun _ =>
      .bind (pres_updateHashtables b0) fun _ => .bind (.modify fun _ hp => hp) fun _ => pres_compLoop b0 e fuel _ _) (.pure _)

theorem compPad_tail {b0 : List Byte} {total : Nat} {w w' : Writer} (hw : WTail b0 w) (h : compPad total w = .ok () w') :
    WTail b0 w' ∧ w'.bit = 0 := by
  unfold compPad at h
  rw [M.modify_bind_apply, M.get_bind_apply] at h
  have h1 : ∃ w1, (if w.bit ≠ 0 then { w with out := w.out + 1, olen := w.olen - 1, bit := 0 } else w) = w1 ∧ WTail b0 w1 ∧ w1.bit = 0 := by
    refine ⟨_, rfl, ?_⟩
    split
    · rename_i hb
      have hp := hw.part hb
      have hl := hw.len
      have hbit := hw.bit
      refine ⟨⟨hw.size, by simp only; omega, by simp only; omega, fun h => absurd rfl h, fun k hk => ?_, fun k hk => ?_⟩, rfl⟩
      · exact hw.near k (by simp only at hk; omega)
      · exact hw.far k (by simp only at hk; omega)
    · rename_i hb
      exact ⟨hw, by omega⟩
  obtain ⟨w1, e1, hw1, hb1⟩ := h1
  rw [e1] at h
  split at h
  · split at h
    · cases h
    · rename_i hpad hroom
      rw [M.bind_def] at h
      unfold M.update at h
      simp only at h
      cases hwr : writeBytes w1.buf w1.out (List.replicate ((8 - (total - w1.olen) % 8) % 8) 0#8) with
      | none => rw [hwr] at h; cases h
      | some m =>
        rw [hwr] at h
        cases h
        have hlen := writeBytes_length hwr
        rw [List.length_replicate] at hlen
        have hl := hw1.len
        have hs := hw1.size
        refine ⟨⟨by simp only; omega, by simp only; omega, by simp only; omega, fun h => absurd hb1 h, fun k hk => ?_, fun k hk => ?_⟩, hb1⟩
        · simp only [hb1] at hk ⊢
          rw [writeBytes_drop hwr (by rw [List.length_replicate]; omega)]
          exact hw1.near k (by omega)
        · simp only [hb1] at hk ⊢
          rw [writeBytes_drop hwr (by rw [List.length_replicate]; omega)]
          exact hw1.far k (by omega)
  · cases h
    exact ⟨hw1, hb1⟩

theorem swc_tail (e : Endian) (addr fuel : Nat) (j : CompJunk) (inp buf : List Byte) {n : Nat} {b : List Byte}
    (h : sw842CompressF fuel e addr j inp buf = .ret none n b) :
    (∀ k, n ≤ k → b[k]? = buf[k]? ∨ b[k]? = some 0#8) ∧ ∀ k, n + 3 ≤ k → b[k]? = buf[k]? := by
  unfold sw842CompressF at h
  split at h
  · rename_i m p hm
    cases h
    have h0 : CTail buf (compInit j inp buf) :=
      ⟨rfl, by simp [compInit], by simp [compInit], by simp [compInit], fun _ _ => .inl rfl, fun _ _ => rfl⟩
    suffices hs : CTail buf p ∧ p.w.bit = 0 ∧ n = buf.length - p.w.olen by
      obtain ⟨h1, h2, h3⟩ := hs
      have hl := h1.len
      have e1 : n = p.w.out := by omega
      subst e1
      exact ⟨fun k hk => h1.near k (by omega), fun k hk => h1.far k (by omega)⟩
    have pad : ∀ p0, CTail buf p0 → ∀ p1, liftW (compPad buf.length) p0 = .ok () p1 → CTail buf p1 ∧ p1.w.bit = 0 := by
      intro p0 hp0 p1 h
      unfold liftW at h
      split at h <;> cases h
      rename_i w hw
      exact compPad_tail hp0 hw
    have last : Post (CTail buf) (liftW (compPad buf.length) >>= fun _ => M.get >>= fun p : Comp =>
        (if buf.length - p.w.olen > 0xffffffff then M.fail .ENOSPC else Pure.pure (buf.length - p.w.olen) : M Comp Nat))
        fun n p => CTail buf p ∧ p.w.bit = 0 ∧ n = buf.length - p.w.olen := by
      intro p0 hp0 n p hl
      rw [M.bind_def] at hl
      split at hl <;> try cases hl
      rename_i p2 h2
      have i2 := pad _ hp0 _ h2
      rw [M.get_bind_apply] at hl
      split at hl
      · cases hl
      · cases hl
        exact ⟨i2.1, i2.2, rfl⟩
    have tl : Post (CTail buf) (liftW (addBits e 30#64 5) >>= fun _ => (M.access fun _ => crc32be e addr 0#32 inp inp.length) >>= fun crc =>
        liftW (addBits e (crc.setWidth 64) 32) >>= fun _ => liftW (compPad buf.length) >>= fun _ => M.get >>= fun p : Comp =>
        (if buf.length - p.w.olen > 0xffffffff then M.fail .ENOSPC else Pure.pure (buf.length - p.w.olen) : M Comp Nat))
        fun n p => CTail buf p ∧ p.w.bit = 0 ∧ n = buf.length - p.w.olen :=
      .bind (pres_addB buf e _ (by omega)) fun _ => .bind (.access _) fun _ => .bind (pres_addB buf e _ (by omega)) fun _ => last
    have hk : Post (CTail buf) (compBody e addr fuel inp buf.length) fun n p => CTail buf p ∧ p.w.bit = 0 ∧ n = buf.length - p.w.olen := by
      unfold compBody
      dsimp only
      exact .ite (.bind .get fun _ => .ite (.bind (pres_addShortData buf e _) fun _ => .bind (.modify fun _ hp => hp) fun _ => tl) tl)
        (.bind (.access _) fun _ => .bind (pres_compLoop buf e _ _ _) fun _ => .ite
          (.bind (pres_addRepeat buf e _) fun _ => .bind .get fun _ => .ite (.bind (pres_addShortData buf e _) fun _ => .bind (.modify fun _ hp => hp) fun _ => tl) tl)
          (.bind .get fun _ => .ite (.bind (pres_addShortData buf e _) fun _ => .bind (.modify fun _ hp => hp) fun _ => tl) tl))
    exact hk _ h0 _ _ hm
  all_goals cases h

/-! ## The optimised compressor -/

/-- Behind the words written everything is as it was at the beginning. -/
def BTail (b0 : List Byte) (s : BStream) : Prop := s.buf.drop (8 * s.ptr) = b0.drop (8 * s.ptr)

theorem pres_streamWriteWord (b0 : List Byte) (e : Endian) (v : BitVec 64) : Pres (BTail b0) (streamWriteWord e v) := by
  unfold streamWriteWord
  refine .bind .get fun _ => .ite (.fail _) ?_
  intro s hs
  rw [M.bind_def]
  unfold M.update store64
  simp only
  cases hw : writeBytes s.buf (8 * s.ptr) (wordBytes64 e (swapBe64 e v)) with
  | none => exact ⟨fun _ _ h => (by cases h), fun _ _ h => (by cases h)⟩
  | some m =>
    refine ⟨fun _ _ h => ?_, fun _ _ h => (by cases h)⟩
    cases h
    have := drop_write hw hs
    rw [length_wordBytes64] at this
    exact this

theorem pres_streamWriteBits (b0 : List Byte) (e : Endian) (v : BitVec 64) (n : Nat) : Pres (BTail b0) (streamWriteBits e v n) := by
  unfold streamWriteBits
  exact .bind (.access _) fun _ => .bind .get fun _ => .bind (.access _) fun _ => .bind (.modify fun _ h => h) fun _ => .bind .get fun _ =>
    .ite (.bind (.modify fun _ h => h) fun _ => .bind .get fun _ => .bind (pres_streamWriteWord b0 e _) fun _ => .bind (.access _) fun _ =>
      .modify fun _ h => h) (.pure _)

theorem pres_streamPadLoop (b0 : List Byte) (e : Endian) : ∀ fuel, Pres (BTail b0) (streamPadLoop e fuel)
  | 0 => .timeout
  | fuel + 1 => by
    unfold streamPadLoop
    exact .bind .get fun _ => .ite (.bind (pres_streamWriteWord b0 e _) fun _ => .bind (.modify fun _ h => h) fun _ => pres_streamPadLoop b0 e fuel)
      (.pure _)

theorem pres_streamFlush (b0 : List Byte) (e : Endian) : Pres (BTail b0) (streamFlush e) := by
  unfold streamFlush streamPad
  exact .bind .get fun _ => .ite (.bind (.modify fun _ h => h) fun _ => pres_streamPadLoop b0 e _) (.pure _)

/-- The invariant in the whole state -/
def OCTail (b0 : List Byte) (p : OComp) : Prop := BTail b0 p.s

theorem pres_liftS {α : Type} {b0 : List Byte} {x : M BStream α} (hx : Pres (BTail b0) x) : Pres (OCTail b0) (liftS x) := by
  intro p hp
  unfold liftS
  cases hr : x p.s with
  | ok a w => exact ⟨fun _ _ h => (by cases h; exact (hx _ hp).1 _ _ hr), fun _ _ h => (by cases h)⟩
  | err er w => exact ⟨fun _ _ h => (by cases h), fun _ _ h => (by cases h; exact (hx _ hp).2 _ _ hr)⟩
  | ub => exact ⟨fun _ _ h => (by cases h), fun _ _ h => (by cases h)⟩
  | timeout => exact ⟨fun _ _ h => (by cases h), fun _ _ h => (by cases h)⟩

theorem pres_liftC {b0 : List Byte} (f : OCore → Option OCore) : Pres (OCTail b0) (liftC f) := by
  unfold liftC
  refine .update fun p p' hp h => ?_
  cases hf : f p.core with
  | none => rw [hf] at h; cases h
  | some c => rw [hf] at h; cases h; exact hp

theorem pres_oaddTemplate (b0 : List Byte) (e : Endian) (c : Nat) : Pres (OCTail b0) (oaddTemplate e c) := by
  unfold oaddTemplate
  refine .bind .get fun p => .ite (.bind (pres_liftS (pres_streamWriteBits b0 e _ _)) fun _ => pres_liftS (pres_streamWriteBits b0 e _ _)) ?_
  split
  · exact .bind (.access _) fun _ => pres_liftS (pres_streamWriteBits b0 e _ _)
  · exact .pure _

theorem pres_oprocessNext (b0 : List Byte) (e : Endian) : Pres (OCTail b0) (oprocessNext e) := by
  unfold oprocessNext
  exact .bind (pres_liftC _) fun _ => .bind (pres_liftC _) fun _ => .bind (pres_liftC _) fun _ => .bind .get fun _ => .bind (.access _) fun _ =>
    pres_oaddTemplate b0 e _

theorem pres_ocompStep (b0 : List Byte) (e : Endian) (next last : BitVec 64) (rc : Nat) : Pres (OCTail b0) (ocompStep (.std e) e next last rc) := by
  unfold ocompStep
  have put : ∀ rc : Nat, Pres (OCTail b0) (if next = 0#64 then liftS (streamWriteBits e 0x1C#64 5) >>= fun _ => Pure.pure rc
      else (OConf.std e).processNext >>= fun _ => Pure.pure rc) :=
    fun _ => .ite (.bind (pres_liftS (pres_streamWriteBits b0 e _ _)) fun _ => .pure _) (.bind (pres_oprocessNext b0 e) fun _ => .pure _)
  dsimp only
  exact .ite (.pure _) (.ite (.bind (pres_liftS (pres_streamWriteBits b0 e _ _)) fun _ => .ite (.pure _) (put _)) (put _))

theorem pres_ocompLoop (b0 : List Byte) (e : Endian) : ∀ (fuel : Nat) (last : BitVec 64) (rc : Nat),
    Pres (OCTail b0) (ocompLoop (.std e) e fuel last rc)
  | 0, _, _ => .timeout
  | fuel + 1, last, rc => by
    unfold ocompLoop
    exact .bind .get fun _ => .ite (.bind (.access _) fun _ => .bind (pres_liftC _) fun _ => .bind (pres_ocompStep b0 e _ _ _) fun _ =>
      .bind (pres_liftC _) fun _ => .bind (pres_liftC _) fun _ => pres_ocompLoop b0 e fuel _ _) (.pure _)

theorem optc_tail (e : Endian) {ain aout : Nat} (fuel : Nat) (j : OptJunk) (jsw : CompJunk) (inp buf : List Byte) {n : Nat} {b : List Byte}
    (hal : ain % 8 = 0 ∧ aout % 8 = 0) (h : optsw842CompressF fuel e ain aout j jsw inp buf = .ret none n b) : b.drop n = buf.drop n := by
  unfold optsw842CompressF at h
  split at h
  · cases h
  rw [if_neg (by omega)] at h
  split at h
  · rename_i m p hm
    cases h
    have tl : Post (OCTail buf) (liftS (streamWriteBits e 30#64 5) >>= fun _ => (M.access fun _ => crc32be e ain 0#32 inp inp.length) >>= fun crc =>
        liftS (streamWriteBits e (crc.setWidth 64) 32) >>= fun _ => liftS (streamFlush e) >>= fun _ => M.get >>= fun p : OComp =>
        (Pure.pure (8 * p.s.ptr) : M OComp Nat)) fun n p => OCTail buf p ∧ n = 8 * p.s.ptr :=
      .bind (pres_liftS (pres_streamWriteBits buf e _ _)) fun _ => .bind (.access _) fun _ =>
        .bind (pres_liftS (pres_streamWriteBits buf e _ _)) fun _ => .bind (pres_liftS (pres_streamFlush buf e)) fun _ =>
        .get fun p => .pure fun q hq => ⟨hq.1, by rw [hq.2]⟩
    have hk : Post (OCTail buf) (ocompBody (.std e) e ain fuel inp) fun n p => OCTail buf p ∧ n = 8 * p.s.ptr := by
      unfold ocompBody
      dsimp only
      exact .bind .get fun _ => .bind (.access _) fun _ => .bind (pres_ocompLoop buf e _ _ _) fun _ =>
        .ite (.bind (pres_liftS (pres_streamWriteBits buf e _ _)) fun _ => tl) tl
    obtain ⟨h1, h2⟩ := hk _ (show OCTail buf (ocompInit j inp buf) from rfl) _ _ hm
    rw [h2]
    exact h1
  all_goals cases h

end Lib842
