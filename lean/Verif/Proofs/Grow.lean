import Verif.Proofs.Cut
import Verif.Proofs.Torn
import Verif.Proofs.Prefix
/-!
# The serial decompressor on an input that is continued
-/

namespace Lib842
open Spec Decomp

/-- `y` on a longer input does the same as `x`, unless `x` reports the end of the input (or has too little fuel). -/
def Grows {α : Type} (x y : M Decomp α) : Prop :=
  ∀ p q, Cut p q →
    (∀ a q', x q = .ok a q' → ∃ p', y p = .ok a p' ∧ Cut p' q') ∧
    (∀ er q', x q = .err er q' → er ≠ .EOVERFLOW → ∃ p', y p = .err er p' ∧ p'.buf = q'.buf) ∧
    (x q = .ub → y p = .ub)

namespace Grows
variable {α β : Type}

theorem pure (a : α) : Grows (Pure.pure a : M Decomp α) (Pure.pure a) := by
  intro p q h
  refine ⟨fun b q' hb => ?_, fun er q' hb => ?_, fun hb => ?_⟩
  · cases hb; exact ⟨p, rfl, h⟩
  · cases hb
  · cases hb

theorem fail (er : Errno) : Grows (M.fail er : M Decomp α) (M.fail er) := by
  intro p q h
  refine ⟨fun b q' hb => ?_, fun er q' hb _ => ?_, fun hb => ?_⟩
  · cases hb
  · cases hb; exact ⟨p, rfl, h.buf.symm⟩
  · cases hb

theorem timeout (y : M Decomp α) : Grows (M.timeout : M Decomp α) y := by
  intro p q h
  refine ⟨fun b q' hb => ?_, fun er q' hb _ => ?_, fun hb => ?_⟩ <;> cases hb

theorem bind {x y : M Decomp α} {f g : α → M Decomp β} (hx : Grows x y) (hf : ∀ a, Grows (f a) (g a)) : Grows (x >>= f) (y >>= g) := by
  intro p q h
  obtain ⟨h1, h2, h3⟩ := hx p q h
  rw [M.bind_def, M.bind_def]
  cases hr : x q with
  | ok a q1 =>
    obtain ⟨p1, e1, c1⟩ := h1 a q1 hr
    rw [e1]
    exact hf a p1 q1 c1
  | err er q1 =>
    refine ⟨fun b q' hb => ?_, fun er' q' hb hne => ?_, fun hb => ?_⟩
    · cases hb
    · cases hb
      obtain ⟨p1, e1, c1⟩ := h2 er q1 hr hne
      rw [e1]
      exact ⟨p1, rfl, c1⟩
    · cases hb
  | ub =>
    rw [h3 hr]
    refine ⟨fun b q' hb => ?_, fun er' q' hb => ?_, fun hb => rfl⟩ <;> cases hb
  | timeout => refine ⟨fun b q' hb => ?_, fun er' q' hb => ?_, fun hb => ?_⟩ <;> cases hb

theorem get {f g : Decomp → M Decomp β} (he : ∀ p q, Cut p q → g p = g q) (hf : ∀ p, Grows (f p) (g p)) : Grows (M.get >>= f) (M.get >>= g) := by
  intro p q h
  rw [M.bind_def, M.bind_def]
  have := hf q p q h
  rw [← he p q h] at this
  exact this

theorem ite {c : Prop} [Decidable c] {x y x' y' : M Decomp α} (hx : Grows x x') (hy : Grows y y') :
    Grows (if c then x else y) (if c then x' else y') := by
  split
  · exact hx
  · exact hy

theorem access {f : Decomp → Option α} (he : ∀ p q, Cut p q → f p = f q) : Grows (M.access f) (M.access f) := by
  intro p q h
  unfold M.access
  rw [he p q h]
  cases hf : f q with
  | none => refine ⟨fun b q' hb => ?_, fun er' q' hb => ?_, fun hb => rfl⟩ <;> cases hb
  | some a =>
    refine ⟨fun b q' hb => ?_, fun er' q' hb => ?_, fun hb => ?_⟩
    · cases hb; exact ⟨p, rfl, h⟩
    · cases hb
    · cases hb

end Grows

theorem grows_nextBits (e : Endian) {n : Nat} (h1 : 1 ≤ n) (h64 : n ≤ 64) : Grows (nextBits e n) (nextBits e n) := by
  intro p q h
  by_cases hn : n ≤ q.rest.length
  · obtain ⟨v, q', hq, iq, sq, vq, rq⟩ := (nextBits_reads e n h1 h64).ok q h.rq hn
    obtain ⟨S, hS⟩ := h.rest
    obtain ⟨w, p1, hp, ip, sp, wp, rp⟩ := (nextBits_reads e n h1 h64).ok p h.rp (by rw [hS, List.length_append]; omega)
    rw [hS, rq, List.append_assoc] at rp
    have hi := List.append_inj rp (by simp)
    have hvw : v = w := BitVec.eq_of_toNat_eq (bitsOf_inj hi.1 vq wp)
    subst hvw
    rw [hq, hp]
    refine ⟨fun b q1 hb => ?_, fun er' q1 hb => ?_, fun hb => ?_⟩
    · cases hb
      refine ⟨p1, rfl, ip, iq, ?_, ?_, ?_, S, hi.2.symm⟩
      · rw [sq.buf, sp.buf, h.buf]
      · rw [sq.out, sp.out, h.out]
      · rw [sq.olen, sp.olen, h.olen]
    · cases hb
    · cases hb
  · obtain ⟨q', hq, -, -⟩ := (nextBits_reads e n h1 h64).eof q h.rq (by omega)
    rw [hq]
    refine ⟨fun b q1 hb => ?_, fun er' q1 hb hne => ?_, fun hb => ?_⟩
    · cases hb
    · cases hb; exact absurd rfl hne
    · cases hb

theorem grows_emit (bs : List Byte) : Grows (emit bs) (emit bs) := by
  intro p q h
  unfold emit
  rw [M.bind_def, M.bind_def]
  unfold M.update
  simp only [h.buf, h.out]
  cases hw : writeBytes p.buf p.out bs with
  | none => refine ⟨fun b q' hb => ?_, fun er' q' hb => ?_, fun hb => rfl⟩ <;> cases hb
  | some b =>
    simp only [Option.map_some]
    refine ⟨fun c q' hb => ?_, fun er' q' hb => ?_, fun hb => ?_⟩
    · cases hb
      refine ⟨_, rfl, ⟨h.rp.len, h.rp.bit, h.rp.part⟩, ⟨h.rq.len, h.rq.bit, h.rq.part⟩, rfl, ?_, ?_, h.rest⟩
      · simp only [h.out]
      · simp only [h.olen]
    · cases hb
    · cases hb

theorem grows_doData (e : Endian) {n : Nat} (hn : n = 2 ∨ n = 4 ∨ n = 8) : Grows (doData e n) (doData e n) := by
  unfold doData
  refine .get (fun p q h => by rw [h.olen]) fun p => .ite (.fail _) (.bind (grows_nextBits e (by omega) (by omega)) fun v => ?_)
  exact .ite (grows_emit _) (.ite (grows_emit _) (.ite (grows_emit _) (.fail _)))

theorem grows_doIndexN (e : Endian) {size bits fsize : Nat} (h1 : 1 ≤ bits) (h64 : bits ≤ 64) :
    Grows (doIndexN e size bits fsize) (doIndexN e size bits fsize) := by
  unfold doIndexN
  refine .get (fun p q h => by simp only [h.out]) fun p => .bind (grows_nextBits e h1 h64) fun i => .ite (.fail _) ?_
  refine .get (fun p q h => by rw [h.olen]) fun p => .ite (.fail _) (.bind (.access fun p q h => by rw [h.buf]) fun _ => grows_emit _)

theorem grows_doIndex (e : Endian) (n : Nat) : Grows (doIndex e n) (doIndex e n) := by
  unfold doIndex
  exact .ite (grows_doIndexN e (by decide) (by decide)) (.ite (grows_doIndexN e (by decide) (by decide))
    (.ite (grows_doIndexN e (by decide) (by decide)) (.fail _)))

theorem grows_doActions (e : Endian) : ∀ ops : List Nat, (∀ op ∈ ops, op &&& 0x70 = 0x20 → op &&& 0x0f = 2 ∨ op &&& 0x0f = 4 ∨ op &&& 0x0f = 8) →
    Grows (doActions e ops) (doActions e ops)
  | [], _ => .pure _
  | op :: ops, h => by
    unfold doActions
    have ih := grows_doActions e ops fun o ho => h o (List.mem_cons_of_mem _ ho)
    by_cases hd : op &&& 0x70 = 0x20
    · simp only [if_pos hd]; exact .bind (grows_doData e (h op (List.mem_cons_self ..) hd)) fun _ => ih
    · simp only [if_neg hd]; exact .ite (.bind (grows_doIndex e _) fun _ => ih) (.ite ih (.bind (.fail _) fun _ => ih))

theorem data_sizes : ∀ row ∈ decompOps, ∀ op ∈ row, op &&& 0x70 = 0x20 → op &&& 0x0f = 2 ∨ op &&& 0x0f = 4 ∨ op &&& 0x0f = 8 := by decide

theorem grows_doOp (e : Endian) (o : Nat) : Grows (doOp e o) (doOp e o) := by
  unfold doOp
  split
  · exact .fail _
  · intro p q h
    rw [M.bind_def, M.bind_def]
    unfold M.access
    cases hr : decompOps[o]? with
    | none => refine ⟨fun b q' hb => ?_, fun er' q' hb => ?_, fun hb => rfl⟩ <;> cases hb
    | some row => exact grows_doActions e row (data_sizes row (List.mem_of_getElem? hr)) p q h

theorem grows_doRepeat : ∀ n : Nat, Grows (doRepeat n) (doRepeat n)
  | 0 => .pure _
  | n + 1 => by
    unfold doRepeat
    exact .bind (.access fun p q h => by rw [h.buf, h.out]) fun _ => .bind (grows_emit _) fun _ => grows_doRepeat n

theorem grows_doShort (e : Endian) : ∀ n : Nat, Grows (doShort e n) (doShort e n)
  | 0 => .pure _
  | n + 1 => by
    unfold doShort
    exact .bind (grows_nextBits e (by decide) (by decide)) fun _ => .bind (grows_emit _) fun _ => grows_doShort e n

theorem grows_decompOp (e : Endian) (op : Nat) : Grows (decompOp e op) (decompOp e op) := by
  unfold decompOp
  refine .ite (.bind (grows_nextBits e (by decide) (by decide)) fun rep => ?_) (.ite ?_ (.ite
    (.bind (grows_nextBits e (by decide) (by decide)) fun bytes => .ite (.fail _) ?_) (grows_doOp e op)))
  · exact .get (fun p q h => by rw [h.out, h.olen]) fun p => .ite (.fail _) (.ite (.fail _) (grows_doRepeat _))
  · exact .get (fun p q h => by rw [h.olen]) fun p => .ite (.fail _) (grows_emit _)
  · exact .get (fun p q h => by rw [h.olen]) fun p => .ite (.fail _) (grows_doShort e _)

theorem grows_decompLoop (e : Endian) : ∀ fuel k : Nat, Grows (decompLoop e fuel) (decompLoop e (fuel + k))
  | 0, _ => .timeout _
  | fuel + 1, k => by
    rw [Nat.add_right_comm]
    unfold decompLoop
    exact .bind (grows_nextBits e (by decide) (by decide)) fun op => .ite (.pure _)
      (.bind (grows_decompOp e _) fun _ => grows_decompLoop e fuel k)

theorem grows_decompBody (e : Endian) (addr fuel k total : Nat) : Grows (decompBody e addr fuel total) (decompBody e addr (fuel + k) total) := by
  unfold decompBody
  refine .bind (grows_decompLoop e fuel k) fun _ => .bind (grows_nextBits e (by decide) (by decide)) fun crc => ?_
  refine .get (fun p q h => by rw [h.olen]) fun p => .bind (.access fun p q h => by rw [h.buf, h.olen]) fun want => ?_
  exact .ite (.fail _) (.ite (.fail _) (.pure _))

/-- More input does not change the result, unless it was that the input ended too early. -/
theorem sw_grow (e : Endian) (addr : Nat) (c s buf : List Byte) (h : ∀ n b, sw842Decompress e addr c buf ≠ .ret (some .EOVERFLOW) n b) :
    sw842Decompress e addr (c ++ s) buf = sw842Decompress e addr c buf := by
  have hcut : Cut (decompInit (c ++ s) buf) (decompInit c buf) := by
    refine ⟨(decompInit_inv _ buf).r, (decompInit_inv _ buf).r, rfl, rfl, rfl, bytesBits s, ?_⟩
    rw [decompInit_rest, decompInit_rest, ← bytesBits_append]
  obtain ⟨h1, h2, h3⟩ := grows_decompBody e addr (8 * c.length + 1) (8 * s.length) buf.length _ _ hcut
  have hres := sw842Decompress_res e addr c buf
  unfold sw842Decompress sw842DecompressF at h hres ⊢
  rw [show 8 * (c ++ s).length + 1 = 8 * c.length + 1 + 8 * s.length by rw [List.length_append]; omega]
  cases hb : decompBody e addr (8 * c.length + 1) buf.length (decompInit c buf) with
  | ok m q => obtain ⟨p, e1, c1⟩ := h1 m q hb; rw [e1]; simp only [c1.buf]
  | err er q =>
    rw [hb] at h
    obtain ⟨p, e1, c1⟩ := h2 er q hb (by rintro rfl; exact h _ _ rfl)
    rw [e1]; simp only [c1]
  | ub => rw [h3 hb]
  | timeout => rw [hb] at hres; cases hres

/-! ## The end of the input -/

/-- With `k` unread bits `x` does not report the end of the input, and reads at most `k`. -/
def Needs {α : Type} (x : M Decomp α) (k : Nat) : Prop :=
  ∀ p, p.RInv → k ≤ p.rest.length → (∀ q, x p ≠ .err .EOVERFLOW q) ∧ ∀ a q, x p = .ok a q → q.RInv ∧ p.rest.length ≤ q.rest.length + k

namespace Needs
variable {α β : Type}

theorem mono {x : M Decomp α} {k l : Nat} (h : Needs x k) (hl : k ≤ l) : Needs x l := by
  intro p hp hk
  obtain ⟨h1, h2⟩ := h p hp (by omega)
  exact ⟨h1, fun a q ha => ⟨(h2 a q ha).1, by have := (h2 a q ha).2; omega⟩⟩

theorem pure (a : α) : Needs (Pure.pure a : M Decomp α) 0 := by
  intro p hp _
  refine ⟨(fun q hq => by cases hq), fun b q hq => ?_⟩
  cases hq
  exact ⟨hp, by omega⟩

theorem fail {er : Errno} (h : er ≠ .EOVERFLOW) (k : Nat) : Needs (M.fail er : M Decomp α) k := by
  intro p hp _
  refine ⟨fun q hq => ?_, fun b q hq => by cases hq⟩
  cases hq
  exact h rfl

theorem bind {x : M Decomp α} {f : α → M Decomp β} {k l : Nat} (hx : Needs x k) (hf : ∀ a, Needs (f a) l) : Needs (x >>= f) (k + l) := by
  intro p hp hk
  obtain ⟨h1, h2⟩ := hx p hp (by omega)
  rw [M.bind_def]
  cases hr : x p with
  | ok a q =>
    obtain ⟨i1, l1⟩ := h2 a q hr
    obtain ⟨h3, h4⟩ := hf a q i1 (by omega)
    exact ⟨h3, fun b q' hb => ⟨(h4 b q' hb).1, by have := (h4 b q' hb).2; omega⟩⟩
  | err er q =>
    refine ⟨fun q' hq => ?_, fun b q' hq => by cases hq⟩
    cases hq
    exact h1 _ hr
  | ub => exact ⟨(fun q' hq => by cases hq), fun b q' hq => by cases hq⟩
  | timeout => exact ⟨(fun q' hq => by cases hq), fun b q' hq => by cases hq⟩

theorem get {f : Decomp → M Decomp β} {k : Nat} (hf : ∀ p, Needs (f p) k) : Needs (M.get >>= f) k := by
  intro p hp hk
  rw [M.bind_def]
  exact hf p p hp hk

theorem ite {c : Prop} [Decidable c] {x y : M Decomp α} {k : Nat} (hx : Needs x k) (hy : Needs y k) : Needs (if c then x else y) k := by
  split
  · exact hx
  · exact hy

theorem access (f : Decomp → Option α) : Needs (M.access f) 0 := by
  intro p hp _
  unfold M.access
  cases f p with
  | none => exact ⟨(fun q' hq => by cases hq), fun b q' hq => by cases hq⟩
  | some a => exact ⟨(fun q' hq => by cases hq), fun b q' hq => by cases hq; exact ⟨hp, by omega⟩⟩

end Needs

theorem needs_nextBits (e : Endian) {n : Nat} (h1 : 1 ≤ n) (h64 : n ≤ 64) : Needs (nextBits e n) n := by
  intro p hp hk
  obtain ⟨v, q, hq, iq, sq, vq, rq⟩ := (nextBits_reads e n h1 h64).ok p hp hk
  rw [hq]
  refine ⟨(fun q' hq => by cases hq), fun b q' hq => ?_⟩
  cases hq
  exact ⟨iq, by rw [rq, List.length_append, length_bitsOf]; omega⟩

theorem needs_emit (bs : List Byte) : Needs (emit bs) 0 := by
  intro p hp _
  unfold emit
  rw [M.bind_def]
  unfold M.update
  simp only
  cases hw : writeBytes p.buf p.out bs with
  | none => exact ⟨(fun q' hq => by cases hq), fun b q' hq => by cases hq⟩
  | some b =>
    simp only [Option.map_some]
    refine ⟨(fun q' hq => by cases hq), fun b q' hq => ?_⟩
    cases hq
    exact ⟨⟨hp.len, hp.bit, hp.part⟩, Nat.le_refl _⟩

theorem needs_doData (e : Endian) {n : Nat} (hn : n = 2 ∨ n = 4 ∨ n = 8) : Needs (doData e n) (n * 8) := by
  unfold doData
  refine .get fun p => .ite (.fail (by decide) _) ((Needs.bind (needs_nextBits e (by omega) (by omega)) (l := 0) fun v => ?_).mono (by omega))
  exact .ite (needs_emit _) (.ite (needs_emit _) (.ite (needs_emit _) (.fail (by decide) _)))

theorem needs_doIndexN (e : Endian) {size bits fsize : Nat} (h1 : 1 ≤ bits) (h64 : bits ≤ 64) : Needs (doIndexN e size bits fsize) bits := by
  unfold doIndexN
  refine .get fun p => (Needs.bind (needs_nextBits e h1 h64) (l := 0) fun i => .ite (.fail (by decide) _) ?_).mono (by omega)
  exact .get fun p => .ite (.fail (by decide) _) ((Needs.bind (.access _) fun _ => needs_emit _).mono (by omega))

theorem needs_doIndex (e : Endian) (n : Nat) : Needs (doIndex e n) 9 := by
  unfold doIndex
  exact .ite ((needs_doIndexN e (by decide) (by decide)).mono (by omega)) (.ite (needs_doIndexN e (by decide) (by decide))
    (.ite ((needs_doIndexN e (by decide) (by decide)).mono (by omega)) (.fail (by decide) _)))

/-- Bits of an action at most -/
def actionNeeds (op : Nat) : Nat := if op &&& 0x70 = 0x20 then (op &&& 0x0f) * 8 else if op &&& 0x70 = 0x10 then 9 else 0

theorem needs_doActions (e : Endian) : ∀ ops : List Nat, (∀ op ∈ ops, op &&& 0x70 = 0x20 → op &&& 0x0f = 2 ∨ op &&& 0x0f = 4 ∨ op &&& 0x0f = 8) →
    Needs (doActions e ops) (ops.map actionNeeds).sum
  | [], _ => .pure _
  | op :: ops, h => by
    unfold doActions
    have ih := needs_doActions e ops fun o ho => h o (List.mem_cons_of_mem _ ho)
    rw [List.map_cons, List.sum_cons, show actionNeeds op = if op &&& 0x70 = 0x20 then (op &&& 0x0f) * 8 else if op &&& 0x70 = 0x10 then 9 else 0 from rfl]
    by_cases hd : op &&& 0x70 = 0x20
    · simp only [if_pos hd]; exact .bind (needs_doData e (h op (List.mem_cons_self ..) hd)) fun _ => ih
    · simp only [if_neg hd]
      by_cases hi : op &&& 0x70 = 0x10
      · simp only [if_pos hi]; exact .bind (needs_doIndex e _) fun _ => ih
      · simp only [if_neg hi, Nat.zero_add]
        exact .ite ih ((Needs.bind (.fail (by decide) 0) fun _ => ih).mono (by omega))

theorem needs_doOp (e : Endian) (o : Nat) : Needs (doOp e o) 64 := by
  unfold doOp
  split
  · exact .fail (by decide) _
  · intro p hp hk
    rw [M.bind_def]
    unfold M.access
    cases hr : decompOps[o]? with
    | none => exact ⟨(fun q' hq => by cases hq), fun b q' hq => by cases hq⟩
    | some row =>
      have hrow := List.mem_of_getElem? hr
      have hsum : ∀ row ∈ decompOps, (row.map actionNeeds).sum ≤ 64 := by decide
      exact (needs_doActions e row (data_sizes row hrow)).mono (hsum row hrow) p hp hk

theorem needs_doRepeat : ∀ n : Nat, Needs (doRepeat n) 0
  | 0 => .pure _
  | n + 1 => by
    unfold doRepeat
    exact Needs.bind (k := 0) (l := 0) (.access _) fun _ => Needs.bind (k := 0) (l := 0) (needs_emit _) fun _ => needs_doRepeat n

theorem needs_doShort (e : Endian) : ∀ n : Nat, Needs (doShort e n) (8 * n)
  | 0 => .pure _
  | n + 1 => by
    unfold doShort
    exact (Needs.bind (needs_nextBits e (n := 8) (by decide) (by decide)) fun _ => Needs.bind (k := 0) (needs_emit _) fun _ => needs_doShort e n).mono
      (by omega)

theorem needs_decompOp (e : Endian) (op : Nat) : Needs (decompOp e op) 64 := by
  unfold decompOp
  refine .ite ((Needs.bind (needs_nextBits e (by decide) (by decide)) (l := 0) fun rep => ?_).mono (by omega)) (.ite ?_ (.ite ?_ (needs_doOp e op)))
  · exact .get fun p => .ite (.fail (by decide) _) (.ite (.fail (by decide) _) (needs_doRepeat _))
  · exact .get fun p => .ite (.fail (by decide) _) ((needs_emit _).mono (by omega))
  · refine (Needs.bind (needs_nextBits e (by decide) (by decide)) (l := 56) fun bytes => ?_).mono (by omega)
    by_cases hb : bytes.toNat = 0 ∨ bytes.toNat > 7
    · rw [if_pos hb]; exact .fail (by decide) _
    · rw [if_neg hb]
      exact .get fun p => .ite (.fail (by decide) _) ((needs_doShort e _).mono (by omega))

/-- Where the end of the input is reported, fewer than 69 bits follow after valid ops. -/
theorem decompLoop_eof (e : Endian) (fuel : Nat) {p p' : Decomp} (hp : p.DInv) (h : decompLoop e fuel p = .err .EOVERFLOW p') :
    ∃ (ops : List Op) (R : List Bool), (∀ op ∈ ops, op.Valid) ∧ p.rest = ops.flatMap Op.bits ++ R ∧ R.length < 69 := by
  induction fuel generalizing p with
  | zero => cases h
  | succ fuel ih =>
    rw [decompLoop] at h
    rcases nextBits_step e (n := 5) (by omega) (by omega) hp with
      ⟨v, p1, h1, hi1, hl1, hv, hr, ho1, hol, hout, hbuf⟩ | ⟨er', p1, h1, hl⟩
    · rw [M.bind_ok h1] at h
      by_cases hend : v.toNat = 0x1E
      · rw [if_pos hend] at h; cases h
      rw [if_neg hend] at h
      rcases decompOp_step e hv hend hi1 with (⟨_, p2, h2, hi2, hl2, op, hval, hb, hst⟩ | ⟨er2, p2, h2, hl⟩) | ⟨hub, -⟩
      · rw [M.bind_ok h2] at h
        obtain ⟨ops, R, hvs, hR, hl⟩ := ih hi2 h
        refine ⟨op :: ops, R, ?_, ?_, hl⟩
        · intro o ho
          rcases List.mem_cons.1 ho with rfl | ho
          · exact hval
          · exact hvs o ho
        · rw [hr, hb, hR, List.flatMap_cons, List.append_assoc]
      · rw [M.bind_err h2] at h
        cases h
        refine ⟨[], p.rest, by simp, by simp, ?_⟩
        by_cases hlt : p.rest.length < 69
        · exact hlt
        · have hrl : p.rest.length = 5 + p1.rest.length := by rw [hr]; simp
          exact absurd h2 ((needs_decompOp e v.toNat p1 hi1.r (by omega)).1 _)
      · rw [M.bind_def, hub] at h
        cases h
    · refine ⟨[], p.rest, by simp, by simp, ?_⟩
      by_cases hlt : p.rest.length < 69
      · exact hlt
      · exact absurd h1 (by
          obtain ⟨v, q, hq, -⟩ := (nextBits_reads e 5 (by omega) (by omega)).ok p hp.r (by omega)
          rw [hq]
          intro hc
          cases hc)

theorem sw_eof (e : Endian) (addr : Nat) (inp buf b : List Byte) (n : Nat) (h : sw842Decompress e addr inp buf = .ret (some .EOVERFLOW) n b) :
    ∃ (ops : List Op) (R : List Bool), (∀ op ∈ ops, op.Valid) ∧ bytesBits inp = ops.flatMap Op.bits ++ R ∧ R.length < 69 := by
  have hres := decompLoop_res e (8 * inp.length + 1) (decompInit_inv inp buf)
    (by rw [decompInit_rest]; simpa using sw842Decompress_fuel inp)
  unfold sw842Decompress at h
  cases hx : decompLoop e (8 * inp.length + 1) (decompInit inp buf) with
  | ok u p1 =>
    rw [hx] at hres
    cases hres with
    | @ok _ ops hi hl hvs hrest hrun =>
      rw [decompInit_rest] at hrest
      rw [decompInit_buf] at hl
      rw [decompTail e addr _ hx hi hl] at h
      rcases nextBits_step e (n := 32) (by omega) (by omega) hi with
        ⟨v, p2, h1, hi1, hl1, hv, hr, ho1, hol, hout, hbuf⟩ | ⟨er', p2, h1, hl1⟩
      · rw [h1] at h
        simp only at h
        split at h
        · cases h
        · split at h <;> cases h
      · refine ⟨ops, _, hvs, hrest, ?_⟩
        by_cases hlt : p1.rest.length < 32
        · rw [List.length_append, length_bitsOf]; omega
        · obtain ⟨v, q, hq, -⟩ := (nextBits_reads e 32 (by omega) (by omega)).ok p1 hi.r (by omega)
          rw [hq] at h1
          cases h1
  | err er' p1 =>
    unfold sw842DecompressF decompBody at h
    rw [M.bind_err hx] at h
    cases h
    obtain ⟨ops, R, h1, h2, h3⟩ := decompLoop_eof e _ (decompInit_inv inp buf) hx
    exact ⟨ops, R, h1, by rw [← h2, decompInit_rest], h3⟩
  | ub =>
    unfold sw842DecompressF decompBody at h
    rw [M.bind_def, hx] at h
    cases h
  | timeout =>
    unfold sw842DecompressF decompBody at h
    rw [M.bind_def, hx] at h
    cases h

/-- No valid ops come within 68 bits of the end of an input that ends with 160 ones. -/
theorem ones_end {ops : List Op} {P R : List Bool} (hv : ∀ op ∈ ops, op.Valid) (h : P ++ List.replicate 160 true = ops.flatMap Op.bits ++ R)
    (hR : R.length < 69) : False := by
  have hl := congrArg List.length h
  simp only [List.length_append, List.length_replicate] at hl
  rcases List.eq_nil_or_concat ops with rfl | ⟨init, op, rfl⟩
  · simp at hl; omega
  · have hvo : op.Valid := hv op (by simp)
    have h69 := op_le69 hvo
    have h5 : 5 ≤ op.bits.length := by rw [op_bits_eq, List.length_append, length_bitsOf]; omega
    rw [List.concat_eq_append, List.flatMap_append, List.flatMap_singleton, List.append_assoc] at h
    rw [List.concat_eq_append, List.flatMap_append, List.flatMap_singleton, List.length_append] at hl
    have hd := congrArg (List.drop (init.flatMap Op.bits).length) h
    rw [List.drop_left, List.drop_append, List.drop_of_length_le (by omega), List.nil_append, List.drop_replicate, op_bits_eq, List.append_assoc] at hd
    have hc := congrArg (List.take 5) hd
    rw [List.take_append_of_le_length (by simp), List.take_replicate, List.take_of_length_le (by simp)] at hc
    have hm : min 5 (160 - ((init.flatMap Op.bits).length - P.length)) = 5 := by omega
    rw [hm] at hc
    have hlt := opCode_lt_end hvo
    generalize opCode op = c at hc hlt
    clear hl hd h h69 h5 hR
    revert hc
    revert hlt
    revert c
    decide

theorem sw_ones (e : Endian) (addr : Nat) (inp buf b : List Byte) (n : Nat) :
    sw842Decompress e addr (inp ++ List.replicate 20 0xff) buf ≠ .ret (some .EOVERFLOW) n b := by
  intro h
  obtain ⟨ops, R, h1, h2, h3⟩ := sw_eof e addr _ buf b n h
  rw [bytesBits_append, show bytesBits (List.replicate 20 (0xff : Byte)) = List.replicate 160 true by decide +kernel] at h2
  exact ones_end h1 h2 h3

end Lib842
