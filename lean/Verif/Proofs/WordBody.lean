import Verif.Proofs.WordOpt
import Verif.Proofs.Tail
/-!
# The whole decompressors with machine arithmetic
-/

namespace Lib842

variable {σ τ α β : Type} {tr : σ → τ} {Inv : σ → Prop}

/-- What the computation with natural numbers keeps is kept by the other one -/
theorem RelAt.both {J : τ → Prop} {p : σ} {x : M σ α} {y : M τ α} (h : RelAt tr Inv p x y) (hy : Pres J y) (hj : J (tr p)) :
    RelAt tr (fun p => Inv p ∧ J (tr p)) p x y := by
  refine ⟨h.eq, fun a p' he => ⟨h.inv a p' he, ?_⟩⟩
  have := h.eq
  rw [he] at this
  exact (hy _ hj).1 a _ this.symm

/-- The invariant with the length of the buffer -/
structure DecompW.Inv2 (buf : List Byte) (p : DecompW) : Prop where
  inv : p.Inv
  tail : DTail buf p.nat

theorem rel_decompBody (e : Endian) (addr fuel : Nat) (buf : List Byte) (hb : buf.length < 2 ^ 63) {p : DecompW} (hp : p.Inv2 buf) :
    RelV DecompW.nat (DecompW.Inv2 buf) BitVec.toNat p (decompBodyW e addr fuel (BitVec.ofNat 64 buf.length)) (decompBody e addr fuel buf.length) := by
  unfold decompBodyW decompBody
  have both : ∀ {α : Type} {p : DecompW} {x : M DecompW α} {y : M Decomp α}, DRel p x y → Pres (DTail buf) y → DTail buf p.nat →
      RelAt DecompW.nat (DecompW.Inv2 buf) p x y := fun h hy hj => ⟨h.eq, fun a p' he => ⟨((h.both hy hj).inv a p' he).1, ((h.both hy hj).inv a p' he).2⟩⟩
  refine .bind (both (rel_decompLoop e fuel hp.1) (pres_decompLoop buf e fuel) hp.2) fun _ p1 _ h1 =>
    .bind (both (rel_nextBits e h1.1 32#8) (pres_nextBits buf e _) h1.2) fun crc p2 _ h2 => .get ?_
  have hl : p2.olen.toNat ≤ buf.length := by
    have h3 := h2.1.olen
    have h4 : p2.buf.length = buf.length := h2.2.size
    omega
  have hs : (BitVec.ofNat 64 buf.length - p2.olen).toNat = buf.length - p2.olen.toNat := by
    rw [BitVec.toNat_sub, BitVec.toNat_ofNat]
    omega
  refine .bind (.access h2 (by rw [hs]; rfl)) fun want p3 hw h3 => .ite Iff.rfl (fun _ => .fail _) fun _ => .ite ?_ (fun _ => .fail _) fun _ => .pure h3 hs
  rw [gt_iff_lt, wlt, hs]
  exact Iff.rfl

theorem sw842DecompressW_eq (e : Endian) (addr : Nat) (inp buf : List Byte) (h : inp.length < 2 ^ 63 ∧ buf.length < 2 ^ 63) :
    sw842DecompressW e addr inp buf = sw842Decompress e addr inp buf := by
  have hn := decompInitW_nat inp buf h
  have := (rel_decompBody e addr (8 * inp.length + 1) buf h.2 (p := decompInitW inp buf)
    ⟨decompInitW_inv inp buf h, by rw [hn]; exact ⟨rfl, by simp [decompInit], rfl⟩⟩).eq
  unfold sw842DecompressW sw842Decompress sw842DecompressF
  rw [hn] at this
  rw [← this]
  cases decompBodyW e addr (8 * inp.length + 1) (BitVec.ofNat 64 buf.length) (decompInitW inp buf) <;> rfl

theorem optsw842DecompressW_eq (e : Endian) (ain aout : Nat) (inp buf : List Byte) (h : inp.length < 2 ^ 63 ∧ buf.length < 2 ^ 63) :
    optsw842DecompressW e ain aout inp buf = optsw842Decompress e ain aout inp buf := by
  unfold optsw842DecompressW optsw842Decompress optsw842DecompressF
  split
  · exact sw842DecompressW_eq e aout inp buf h
  · have hn := optInitW_nat inp buf h
    have : RelV ODecompW.nat ODecompW.Inv BitVec.toNat (optInitW inp buf) (optBodyW e aout (8 * inp.length + 1)) (optBody e aout (8 * inp.length + 1)) := by
      unfold optBodyW optBody
      refine .bind (rel_doWhile e _ (optInitW_inv inp buf h)) fun _ p1 _ h1 => .bind (rel_readBits e h1 32#8 (by decide)) fun crc p2 _ h2 =>
        .bind (rel_checkError h2) fun _ p3 _ h3 => .get ?_
      have ho : (BitVec.ofNat 64 p3.out).toNat = p3.out := by
        rw [BitVec.toNat_ofNat]
        have := h3.out
        have := h3.small
        omega
      exact .bind (.access h3 (by rw [ho]; rfl)) fun want p4 _ h4 => .ite Iff.rfl (fun _ => .fail _) fun _ => .pure h4 ho
    have := this.eq
    rw [hn] at this
    rw [← this]
    cases optBodyW e aout (8 * inp.length + 1) (optInitW inp buf) <;> rfl

end Lib842
