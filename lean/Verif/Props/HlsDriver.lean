import Verif.Proofs.HlsDriver
import Verif.Props.Hls
/-!
# Properties of the consumer of the HLS tokens

C110.
-/

namespace Lib842.Props
open Lib842 Spec

/-- What is printed for the bits `g`: the op code, and the argument bits as a number. -/
def Printed (g : List Bool) (p : Nat × Nat) : Prop :=
  5 ≤ g.length ∧ p.1 < 32 ∧ p.2 < 2 ^ (g.length - 5) ∧ g = bitsOf 5 p.1 ++ bitsOf (g.length - 5) p.2

theorem printed_of {g : List Bool} (h : CutAt g) : Printed g (bitsVal (g.take 5), bitsVal (g.drop 5)) := by
  have h1 := bitsVal_lt (g.take 5)
  have h2 := bitsVal_lt (g.drop 5)
  have h3 := bitsOf_bitsVal (g.take 5)
  have h4 := bitsOf_bitsVal (g.drop 5)
  rw [List.length_take, Nat.min_eq_left h.1] at h1 h3
  rw [List.length_drop] at h2 h4
  exact ⟨h.1, h1, h2, by rw [h3, h4, List.take_append_drop]⟩

theorem forall₂_map_right {α β : Type} {R : α → β → Prop} {f : α → β} :
    ∀ l : List α, (∀ a ∈ l, R a (f a)) → List.Forall₂ R l (l.map f)
  | [], _ => .nil
  | a :: l, h => .cons (h a (by simp)) (forall₂_map_right l fun x hx => h x (by simp [hx]))

/-- C110: a stream of the hardware format that goes through the tokenizer and its consumer: for each op its code and its
argument bits come out, in order, then the end marker; no token is left and the consumer never waits. -/
theorem C110_hls_driver {ws : List (List Byte)} (hw : ∀ w ∈ ws, w.length = 16) {ops : List Op}
    (hv : ∀ op ∈ ops, op.Valid ∧ op.isShort = false) {rest : List Bool}
    (h : bytesBits ws.flatten = ops.flatMap Op.bits ++ (bitsOf 5 0x1e ++ rest)) :
    ∃ ps, hlsDriver (bus ws) = some (.ok (ps ++ [(0x1e, 0)], [])) ∧
      List.Forall₂ (fun op p => Printed op.bits p) ops ps := by
  have hcut : ∀ op ∈ ops, CutAt op.bits := fun op hop => (cutAt_op (hv op hop).1 (hv op hop).2).1
  refine ⟨ops.map fun op => (bitsVal (op.bits.take 5), bitsVal (op.bits.drop 5)), ?_,
    forall₂_map_right _ fun op hop => printed_of (hcut op hop)⟩
  have := hlsPrint_pieces (ops.map Op.bits) (by
    intro g hg
    obtain ⟨op, hop, rfl⟩ := List.mem_map.1 hg
    exact hcut op hop)
  rw [hlsDriver, C48_hls_tokens hw hv h]
  simp only [List.map_map] at this
  exact congrArg some this

/-- C110: the same for every input, well formed or not. -/
theorem C110_hls_driver_total {ws : List (List Byte)} (hw : ∀ w ∈ ws, w.length = 16) (hne : ws ≠ []) :
    ∃ (pieces : List (List Bool)) (tail : List Bool) (ps : List (Nat × Nat)),
      bytesBits ws.flatten = pieces.flatten ++ tail ∧ (∀ g ∈ pieces, Piece g) ∧
      hlsDriver (bus ws) = some (.ok (ps ++ [(0x1e, 0)], [])) ∧ List.Forall₂ Printed pieces ps ∧
      ((∃ r, tail = bitsOf 5 0x1e ++ r) ∨ ∀ g r, Piece g → tail ≠ g ++ r) := by
  obtain ⟨pieces, tail, he, hp, ht, hr⟩ := C48_hls_total hw hne
  have hcut : ∀ g ∈ pieces, CutAt g := fun g hg => (cutAt_piece (hp g hg)).1
  refine ⟨pieces, tail, pieces.map fun g => (bitsVal (g.take 5), bitsVal (g.drop 5)), he, hp, ?_,
    forall₂_map_right _ fun g hg => printed_of (hcut g hg), hr⟩
  rw [hlsDriver, ht]
  exact congrArg some (hlsPrint_pieces pieces hcut)

theorem printed_inj {op op' : Op} (hv : op.Valid ∧ op.isShort = false) (hv' : op'.Valid ∧ op'.isShort = false)
    {p : Nat × Nat} (h : Printed op.bits p) (h' : Printed op'.bits p) : op = op' := by
  have c := (cutAt_op hv.1 hv.2).1
  have c' := (cutAt_op hv'.1 hv'.2).1
  have t : op.bits.take 5 = bitsOf 5 p.1 := by rw [h.2.2.2, take5_bitsOf]
  have t' : op'.bits.take 5 = bitsOf 5 p.1 := by rw [h'.2.2.2, take5_bitsOf]
  have hl := c.2
  have hl' := c'.2
  rw [t] at hl
  rw [t'] at hl'
  have he : op.bits = op'.bits := by rw [h.2.2.2, h'.2.2.2, hl, hl']
  exact (op_bits_inj (R := []) (R' := []) hv.1 hv'.1 (by rw [he])).1

/-- C110: nothing is lost: two streams of the hardware format for which the same comes out have the same ops. -/
theorem C110_hls_driver_injective {ws ws' : List (List Byte)} (hw : ∀ w ∈ ws, w.length = 16)
    (hw' : ∀ w ∈ ws', w.length = 16) {ops ops' : List Op} (hv : ∀ op ∈ ops, op.Valid ∧ op.isShort = false)
    (hv' : ∀ op ∈ ops', op.Valid ∧ op.isShort = false) {rest rest' : List Bool}
    (h : bytesBits ws.flatten = ops.flatMap Op.bits ++ (bitsOf 5 0x1e ++ rest))
    (h' : bytesBits ws'.flatten = ops'.flatMap Op.bits ++ (bitsOf 5 0x1e ++ rest'))
    (heq : hlsDriver (bus ws) = hlsDriver (bus ws')) : ops = ops' := by
  obtain ⟨ps, h1, h2⟩ := C110_hls_driver hw hv h
  obtain ⟨ps', h1', h2'⟩ := C110_hls_driver hw' hv' h'
  rw [h1, h1'] at heq
  have hps : ps = ps' := by
    injection heq with e
    injection e with e
    exact List.append_cancel_right (Prod.mk.inj e).1
  subst hps
  clear h h' h1 h1' heq hw hw'
  induction h2 generalizing ops' with
  | nil => cases h2'; rfl
  | cons hp _ ih =>
    cases h2' with
    | cons hp' ht' =>
      rw [printed_inj (hv _ (by simp)) (hv' _ (by simp)) hp hp']
      rw [ih (fun x hx => hv x (by simp [hx])) (fun x hx => hv' x (by simp [hx])) ht']

/-- The stream of `main`: one literal of 8 bytes and the end marker. -/
example : hlsDriver hlsMainInput = some (.ok ([(0, 0x3030313132323333), (0x1e, 0)], [])) ∧
    hlsMainInput = bus [[0x01, 0x81, 0x81, 0x89, 0x89, 0x91, 0x91, 0x99, 0x9f, 0x80, 0, 0, 0, 0, 0, 0]] := by
  decide +kernel

/-- The stream of `exHlsWs` (two transfers, four ops), which meets the hypotheses above. -/
example : hlsDriver (bus exHlsWs) =
    some (.ok ([(0, 0x0102030405060708), (0x1b, 2), (1, 0x09090909010200), (0x1c, 0), (0x1e, 0)], [])) := by
  decide +kernel

end Lib842.Props
