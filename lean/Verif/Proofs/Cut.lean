import Verif.Proofs.ErrCodes
/-!
# The serial decompressor on the beginning of an input
-/

namespace Lib842
open Spec Decomp

/-- `q` is like `p`, but its input ends earlier. -/
structure Cut (p q : Decomp) : Prop where
  rp : p.RInv
  rq : q.RInv
  buf : q.buf = p.buf
  out : q.out = p.out
  olen : q.olen = p.olen
  rest : ∃ S, p.rest = q.rest ++ S

/-- With the shorter input the result is the same, or the end of the input is reported. -/
def Cuts {α : Type} (x : M Decomp α) : Prop :=
  ∀ p q, Cut p q → ∀ a p', x p = .ok a p' → (∃ q', x q = .ok a q' ∧ Cut p' q') ∨ ∃ q', x q = .err .EOVERFLOW q'

theorem Cuts.pure {α : Type} (a : α) : Cuts (Pure.pure a : M Decomp α) := by
  intro p q h b p' hb
  cases hb
  exact .inl ⟨q, rfl, h⟩

theorem Cuts.fail {α : Type} (er : Errno) : Cuts (M.fail er : M Decomp α) := fun _ _ _ _ _ hb => by cases hb

theorem Cuts.timeout {α : Type} : Cuts (M.timeout : M Decomp α) := fun _ _ _ _ _ hb => by cases hb

theorem Cuts.bind {α β : Type} {x : M Decomp α} {f : α → M Decomp β} (hx : Cuts x) (hf : ∀ a, Cuts (f a)) : Cuts (x >>= f) := by
  intro p q h b p' hb
  rw [M.bind_def] at hb
  cases hr : x p with
  | ok a p1 =>
    rw [hr] at hb
    rcases hx p q h a p1 hr with ⟨q1, h1, h2⟩ | ⟨q1, h1⟩
    · rcases hf a p1 q1 h2 b p' hb with ⟨q2, h3, h4⟩ | ⟨q2, h3⟩
      · exact .inl ⟨q2, by rw [M.bind_def, h1]; exact h3, h4⟩
      · exact .inr ⟨q2, by rw [M.bind_def, h1]; exact h3⟩
    · exact .inr ⟨q1, by rw [M.bind_def, h1]⟩
  | err er p1 => rw [hr] at hb; cases hb
  | ub => rw [hr] at hb; cases hb
  | timeout => rw [hr] at hb; cases hb

theorem Cuts.get {β : Type} {f : Decomp → M Decomp β} (he : ∀ p q, Cut p q → f p = f q) (hf : ∀ p, Cuts (f p)) : Cuts (M.get >>= f) := by
  intro p q h b p' hb
  rw [M.bind_def] at hb ⊢
  have h1 := hf p p q h b p' hb
  rw [he p q h] at h1
  exact h1

theorem Cuts.ite {α : Type} {c : Prop} [Decidable c] {x y : M Decomp α} (hx : Cuts x) (hy : Cuts y) : Cuts (if c then x else y) := by
  split
  · exact hx
  · exact hy

theorem Cuts.access {α : Type} {f : Decomp → Option α} (he : ∀ p q, Cut p q → f p = f q) : Cuts (M.access f) := by
  intro p q h b p' hb
  unfold M.access at hb ⊢
  rw [← he p q h]
  cases hf : f p with
  | none => rw [hf] at hb; cases hb
  | some a => rw [hf] at hb; cases hb; exact .inl ⟨q, rfl, h⟩

theorem cuts_nextBits (e : Endian) {n : Nat} (h1 : 1 ≤ n) (h64 : n ≤ 64) : Cuts (nextBits e n) := by
  intro p q h a p' ha
  by_cases hn : n ≤ q.rest.length
  · obtain ⟨v, q', hq, iq, sq, vq, rq⟩ := (nextBits_reads e n h1 h64).ok q h.rq hn
    obtain ⟨S, hS⟩ := h.rest
    obtain ⟨w, p1, hp, ip, sp, wp, rp⟩ := (nextBits_reads e n h1 h64).ok p h.rp (by rw [hS, List.length_append]; omega)
    rw [ha] at hp
    cases hp
    rw [hS, rq, List.append_assoc] at rp
    have hi := List.append_inj rp (by simp)
    have hvw : v = a := BitVec.eq_of_toNat_eq (bitsOf_inj hi.1 vq wp)
    subst hvw
    refine .inl ⟨q', hq, ip, iq, ?_, ?_, ?_, S, hi.2.symm⟩
    · rw [sq.buf, sp.buf, h.buf]
    · rw [sq.out, sp.out, h.out]
    · rw [sq.olen, sp.olen, h.olen]
  · obtain ⟨q', hq, -, -⟩ := (nextBits_reads e n h1 h64).eof q h.rq (by omega)
    exact .inr ⟨q', hq⟩

theorem cuts_emit (bs : List Byte) : Cuts (emit bs) := by
  intro p q h a p' ha
  unfold emit at ha ⊢
  rw [M.bind_def] at ha ⊢
  unfold M.update at ha ⊢
  simp only [h.buf, h.out] at ha ⊢
  cases hw : writeBytes p.buf p.out bs with
  | none => rw [hw] at ha; cases ha
  | some b =>
    rw [hw] at ha
    simp only [Option.map_some] at ha ⊢
    cases ha
    refine .inl ⟨_, rfl, ⟨h.rp.len, h.rp.bit, h.rp.part⟩, ⟨h.rq.len, h.rq.bit, h.rq.part⟩, rfl, ?_, ?_, h.rest⟩
    · simp only [h.out]
    · simp only [h.olen]

theorem cuts_doData (e : Endian) {n : Nat} (hn : n = 2 ∨ n = 4 ∨ n = 8) : Cuts (doData e n) := by
  unfold doData
  refine .get (fun p q h => by rw [h.olen]) fun p => .ite (.fail _) (.bind (cuts_nextBits e (by omega) (by omega)) fun v => ?_)
  exact .ite (cuts_emit _) (.ite (cuts_emit _) (.ite (cuts_emit _) (.fail _)))

theorem cuts_doIndexN (e : Endian) {size bits fsize : Nat} (h1 : 1 ≤ bits) (h64 : bits ≤ 64) : Cuts (doIndexN e size bits fsize) := by
  unfold doIndexN
  refine .get (fun p q h => by simp only [h.out]) fun p => .bind (cuts_nextBits e h1 h64) fun i => .ite (.fail _) ?_
  refine .get (fun p q h => by rw [h.olen]) fun p => .ite (.fail _) (.bind (.access fun p q h => by rw [h.buf]) fun _ => cuts_emit _)

theorem cuts_doIndex (e : Endian) (n : Nat) : Cuts (doIndex e n) := by
  unfold doIndex
  exact .ite (cuts_doIndexN e (by decide) (by decide)) (.ite (cuts_doIndexN e (by decide) (by decide))
    (.ite (cuts_doIndexN e (by decide) (by decide)) (.fail _)))

theorem cuts_doActions (e : Endian) : ∀ ops : List Nat, (∀ op ∈ ops, op &&& 0x70 = 0x20 → op &&& 0x0f = 2 ∨ op &&& 0x0f = 4 ∨ op &&& 0x0f = 8) →
    Cuts (doActions e ops)
  | [], _ => .pure _
  | op :: ops, h => by
    unfold doActions
    have ih := cuts_doActions e ops fun o ho => h o (List.mem_cons_of_mem _ ho)
    by_cases hd : op &&& 0x70 = 0x20
    · simp only [if_pos hd]; exact .bind (cuts_doData e (h op (List.mem_cons_self ..) hd)) fun _ => ih
    · simp only [if_neg hd]; exact .ite (.bind (cuts_doIndex e _) fun _ => ih) (.ite ih (.bind (.fail _) fun _ => ih))

theorem cuts_doOp (e : Endian) (o : Nat) : Cuts (doOp e o) := by
  unfold doOp
  split
  · exact .fail _
  · intro p q h a p' ha
    rw [M.bind_def] at ha ⊢
    unfold M.access at ha ⊢
    cases hr : decompOps[o]? with
    | none => rw [hr] at ha; cases ha
    | some row =>
      rw [hr] at ha
      have hall : ∀ row ∈ decompOps, ∀ op ∈ row, op &&& 0x70 = 0x20 → op &&& 0x0f = 2 ∨ op &&& 0x0f = 4 ∨ op &&& 0x0f = 8 := by decide
      exact cuts_doActions e row (hall row (List.mem_of_getElem? hr)) p q h a p' ha

theorem cuts_doRepeat : ∀ n : Nat, Cuts (doRepeat n)
  | 0 => .pure _
  | n + 1 => by
    unfold doRepeat
    exact .bind (.access fun p q h => by rw [h.buf, h.out]) fun _ => .bind (cuts_emit _) fun _ => cuts_doRepeat n

theorem cuts_doShort (e : Endian) : ∀ n : Nat, Cuts (doShort e n)
  | 0 => .pure _
  | n + 1 => by
    unfold doShort
    exact .bind (cuts_nextBits e (by decide) (by decide)) fun _ => .bind (cuts_emit _) fun _ => cuts_doShort e n

theorem cuts_decompOp (e : Endian) (op : Nat) : Cuts (decompOp e op) := by
  unfold decompOp
  refine .ite (.bind (cuts_nextBits e (by decide) (by decide)) fun rep => ?_) (.ite ?_ (.ite
    (.bind (cuts_nextBits e (by decide) (by decide)) fun bytes => .ite (.fail _) ?_) (cuts_doOp e op)))
  · exact .get (fun p q h => by rw [h.out, h.olen]) fun p => .ite (.fail _) (.ite (.fail _) (cuts_doRepeat _))
  · exact .get (fun p q h => by rw [h.olen]) fun p => .ite (.fail _) (cuts_emit _)
  · exact .get (fun p q h => by rw [h.olen]) fun p => .ite (.fail _) (cuts_doShort e _)

theorem cuts_decompLoop (e : Endian) : ∀ fuel : Nat, Cuts (decompLoop e fuel)
  | 0 => .timeout
  | fuel + 1 => by
    unfold decompLoop
    exact .bind (cuts_nextBits e (by decide) (by decide)) fun op => .ite (.pure _)
      (.bind (cuts_decompOp e _) fun _ => cuts_decompLoop e fuel)

theorem cuts_decompBody (e : Endian) (addr fuel total : Nat) : Cuts (decompBody e addr fuel total) := by
  unfold decompBody
  refine .bind (cuts_decompLoop e fuel) fun _ => .bind (cuts_nextBits e (by decide) (by decide)) fun crc => ?_
  refine .get (fun p q h => by rw [h.olen]) fun p => .bind (.access fun p q h => by rw [h.buf, h.olen]) fun want => ?_
  exact .ite (.fail _) (.ite (.fail _) (.pure _))

/-- The beginning of an input that is accepted: accepted too, with the same result, or the end of the input is reported. -/
theorem sw_cut (e : Endian) (addr : Nat) (c buf : List Byte) (k n : Nat) (b : List Byte) (h : sw842Decompress e addr c buf = .ret none n b) :
    sw842Decompress e addr (c.take k) buf = .ret none n b ∨ ∃ b', sw842Decompress e addr (c.take k) buf = .ret (some .EOVERFLOW) 0 b' := by
  have hf : ∀ f, 8 * (c.take k).length + 1 ≤ f → sw842DecompressF f e addr (c.take k) buf = sw842Decompress e addr (c.take k) buf := by
    intro f hle
    exact swDecompF_fuel e addr _ _ (by omega) hle
  rw [← hf (8 * c.length + 1) (by rw [List.length_take]; omega)]
  unfold sw842Decompress sw842DecompressF at h
  unfold sw842DecompressF
  cases hb : decompBody e addr (8 * c.length + 1) buf.length (decompInit c buf) with
  | ok m p =>
    rw [hb] at h
    cases h
    have hcut : Cut (decompInit c buf) (decompInit (c.take k) buf) := by
      refine ⟨(decompInit_inv c buf).r, (decompInit_inv _ buf).r, rfl, rfl, rfl, bytesBits (c.drop k), ?_⟩
      rw [decompInit_rest, decompInit_rest, ← bytesBits_append, List.take_append_drop]
    rcases cuts_decompBody e addr (8 * c.length + 1) buf.length _ _ hcut n p hb with ⟨q, h1, h2⟩ | ⟨q, h1⟩
    · left; rw [h1]; simp only [h2.buf]
    · right; rw [h1]; exact ⟨_, rfl⟩
  | err er p => rw [hb] at h; cases h
  | ub => rw [hb] at h; cases h
  | timeout => rw [hb] at h; cases h

end Lib842
