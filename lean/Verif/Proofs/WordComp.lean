import Verif.Model.WordComp
import Verif.Proofs.WordBody
/-!
# `sw842_compress` with machine arithmetic does what it does with natural numbers
-/

namespace Lib842

/-- The words as natural numbers -/
def WriterW.nat (w : WriterW) : Writer := ⟨w.buf, w.out, w.olen.toNat, w.bit.toNat⟩

/-- The words as natural numbers -/
def CompW.nat (p : CompW) : Comp := { p.c with ilen := p.ilen.toNat, w := p.w.nat }

/-- The invariant of the output -/
def WriterW.Inv (b0 : List Byte) (w : WriterW) : Prop := WTail b0 w.nat

/-- The invariant in the whole state -/
structure CompW.Inv (b0 : List Byte) (i0 : BitVec 64) (p : CompW) : Prop where
  w : WTail b0 p.w.nat
  ilen : p.ilen = i0

abbrev WRel {α : Type} (b0 : List Byte) := @RelAt WriterW Writer α WriterW.nat (WriterW.Inv b0)
abbrev CRel {α : Type} (b0 : List Byte) (i0 : BitVec 64) := @RelAt CompW Comp α CompW.nat (CompW.Inv b0 i0)

/-- The `int` variables of `add_bits` -/
theorem addBits_ints : ∀ b : Fin 8, ∀ n : Fin 65, 1 ≤ n.val →
    ((BitVec.ofNat 8 b).setWidth 32 + (BitVec.ofNat 8 n).setWidth 32).toInt = b.val + n.val ∧
    ((BitVec.ofNat 8 b).setWidth 32 + (BitVec.ofNat 8 n).setWidth 32).toNat = b.val + n.val ∧
    (roundRestW ((BitVec.ofNat 8 b).setWidth 32 + (BitVec.ofNat 8 n).setWidth 32)).toNat = roundUp8 (b.val + n.val) - (b.val + n.val) ∧
    (divRoundUpIW ((BitVec.ofNat 8 b).setWidth 32 + (BitVec.ofNat 8 n).setWidth 32)).toNat = divRoundUp (b.val + n.val) 8 := by
  decide +kernel

theorem addBits_int {b n : BitVec 8} (hb : b.toNat < 8) (h1 : 1 ≤ n.toNat) (hn : n.toNat ≤ 64) :
    (b.setWidth 32 + n.setWidth 32).toInt = b.toNat + n.toNat ∧
    (b.setWidth 32 + n.setWidth 32).toNat = b.toNat + n.toNat ∧
    (roundRestW (b.setWidth 32 + n.setWidth 32)).toNat = roundUp8 (b.toNat + n.toNat) - (b.toNat + n.toNat) ∧
    (divRoundUpIW (b.setWidth 32 + n.setWidth 32)).toNat = divRoundUp (b.toNat + n.toNat) 8 := by
  have h := addBits_ints ⟨b.toNat, hb⟩ ⟨n.toNat, by omega⟩ h1
  simp only [BitVec.ofNat_toNat, BitVec.setWidth_eq] at h
  exact h

theorem rel_splitAdd {b0 : List Byte} {rec : BitVec 64 → BitVec 8 → M WriterW Unit} {rec' : BitVec 64 → Nat → M Writer Unit}
    (hr : ∀ w d n, w.Inv b0 → 1 ≤ n.toNat → WRel b0 w (rec d n) (rec' d n.toNat)) {w : WriterW} (hw : w.Inv b0) (d : BitVec 64) (n s : BitVec 8)
    (hs1 : 1 ≤ s.toNat) : WRel b0 w (splitAddBitsW rec d n s) (splitAddBits rec' d n.toNat s.toNat) := by
  unfold splitAddBitsW splitAddBits
  refine .ite wle (fun _ => .fail _) fun h => ?_
  rw [wle] at h
  have hs : (n - s).toNat = n.toNat - s.toNat := by
    rw [BitVec.toNat_sub]
    have := n.isLt
    omega
  rw [← hs]
  exact .bind (hr w _ _ hw (by omega)) fun _ w' _ hw' => hr w' _ _ hw' hs1

theorem rel_addBitsF (b0 : List Byte) (e : Endian) : ∀ (fuel : Nat) (w : WriterW) (d : BitVec 64) (n : BitVec 8), w.Inv b0 → 1 ≤ n.toNat →
    WRel b0 w (addBitsFW e fuel d n) (addBitsF e fuel d n.toNat)
  | 0, _, _, _, _, _ => .timeout
  | fuel + 1, w, d, n, hw, h1 => by
    have hr : ∀ w d n, WriterW.Inv b0 w → 1 ≤ n.toNat → WRel b0 w (addBitsFW e fuel d n) (addBitsF e fuel d n.toNat) :=
      fun w d n h h1 => rel_addBitsF b0 e fuel w d n h h1
    -- the invariant follows from the one of the other computation
    suffices h : RelAt WriterW.nat (fun _ => True) w (addBitsFW e (fuel + 1) d n) (addBitsF e (fuel + 1) d n.toNat) by
      have h2 := h.both (J := WTail b0) (pres_addBitsF b0 e (fuel + 1) d n.toNat h1) hw
      exact ⟨h2.eq, fun a w' he => (h2.inv a w' he).2⟩
    have weak : ∀ {x : M WriterW Unit} {y : M Writer Unit}, WRel b0 w x y → RelAt WriterW.nat (fun _ => True) w x y :=
      fun h => ⟨h.eq, fun _ _ _ => trivial⟩
    unfold addBitsFW addBitsF
    refine .get ?_
    refine .ite (by rw [gt_iff_lt, wlt]; exact Iff.rfl) (fun _ => .fail _) fun hn => ?_
    have hn : n.toNat ≤ 64 := by
      rw [gt_iff_lt, wlt] at hn
      simpa using hn
    obtain ⟨hi, hbn, hro, hdi⟩ := addBits_int hw.bit h1 hn
    have hi' : (w.bit.setWidth 32 + n.setWidth 32).toInt = ((w.nat.bit + n.toNat : Nat) : Int) := by rw [hi]; rfl
    rw [hro]
    simp only [hi', hbn]
    refine .ite (by omega) (fun _ => weak (rel_splitAdd hr hw d n 32#8 (by decide))) fun _ => ?_
    refine .ite (by rw [wlt]; show w.olen.toNat < 8 ∧ _ ↔ w.olen.toNat < 8 ∧ _; omega) (fun _ => weak (rel_splitAdd hr hw d n 16#8 (by decide))) fun _ => ?_
    refine .ite (by rw [wlt]; show w.olen.toNat < 4 ∧ _ ↔ w.olen.toNat < 4 ∧ _; omega) (fun _ => weak (rel_splitAdd hr hw d n 8#8 (by decide))) fun _ => ?_
    refine .ite (by rw [gt_iff_lt, wlt, hdi]; exact Iff.rfl) (fun _ => .fail _) fun hl => ?_
    rw [gt_iff_lt, wlt, hdi, divRoundUp] at hl
    have hb32 : (w.bit.setWidth 32).toNat = w.bit.toNat := by
      rw [BitVec.toNat_setWidth]
      have := w.bit.isLt
      omega
    have hbit := hw.bit
    have hbit' : w.bit.toNat < 8 := hbit
    refine .bind (.access trivial rfl) fun cur w1 hc _ => ?_
    have hc := (waccess_ok hc).2
    subst hc
    refine .bind (.access trivial (by rw [hb32]; rfl)) fun mask w2 hm _ => ?_
    have hm := (waccess_ok hm).2
    subst hm
    refine .bind (.update ?_ fun _ _ => trivial) fun _ w3 hu _ => .modify ?_ trivial
    · rw [Option.map_map]
      rfl
    · have h3 : w3.bit = w2.bit ∧ w3.olen = w2.olen := by
        unfold M.update at hu
        split at hu
        · rename_i q hq
          simp only [Option.map_eq_some_iff] at hq
          obtain ⟨b, _, hb⟩ := hq
          cases hu
          rw [← hb]
          exact ⟨rfl, rfl⟩
        · cases hu
      have hb : (w3.bit + n).toNat = w2.bit.toNat + n.toNat := by
        rw [h3.1, BitVec.toNat_add]
        omega
      have hbn3 : w3.nat.bit = w2.bit.toNat := by show w3.bit.toNat = _; rw [h3.1]
      have h7 : w3.bit + n > 7#8 ↔ w3.nat.bit + n.toNat > 7 := by
        rw [gt_iff_lt, wlt, hb, hbn3]; exact Iff.rfl
      have hq : ((w3.bit + n) / 8#8).toNat = (w3.nat.bit + n.toNat) / 8 := by
        rw [BitVec.toNat_udiv, hb, hbn3]; rfl
      have hm : ((w3.bit + n) % 8#8).toNat = (w3.nat.bit + n.toNat) % 8 := by
        rw [BitVec.toNat_umod, hb, hbn3]; rfl
      have hs : (w3.olen - ((w3.bit + n) / 8#8).setWidth 64).toNat = w3.nat.olen - (w3.nat.bit + n.toNat) / 8 := by
        rw [BitVec.toNat_sub, BitVec.toNat_setWidth, hq, hbn3, h3.2]
        have : w3.nat.olen = w2.olen.toNat := by show w3.olen.toNat = _; rw [h3.2]
        rw [this]
        have := w2.olen.isLt
        omega
      by_cases h : w3.nat.bit + n.toNat > 7
      · simp only [if_pos (h7.2 h), if_pos h]
        unfold WriterW.nat at *
        simp only [Writer.mk.injEq, true_and]
        exact ⟨by rw [hq], hs, hm⟩
      · simp only [if_neg (fun hc => h (h7.1 hc)), if_neg h]
        have hb2 : (w3.bit + n).toNat = w3.bit.toNat + n.toNat := by rw [hb, h3.1]
        unfold WriterW.nat
        simp only [hb2]

theorem rel_addB (b0 : List Byte) (e : Endian) {w : WriterW} (hw : w.Inv b0) (d : BitVec 64) (n : BitVec 8) (m : Nat) (hm : n.toNat = m) (h1 : 1 ≤ m) :
    WRel b0 w (addBitsW e d n) (addBits e d m) := by
  subst hm
  exact rel_addBitsF b0 e _ w d n hw h1

theorem rel_liftW {α : Type} {b0 : List Byte} {x : M WriterW α} {y : M Writer α} {i0 : BitVec 64} {p : CompW} (hi : p.ilen = i0) (h : WRel b0 p.w x y) :
    CRel b0 i0 p (liftWW x) (liftW y) := by
  constructor
  · unfold liftWW liftW
    have : p.nat.w = p.w.nat := rfl
    rw [this, ← h.eq]
    cases x p.w <;> rfl
  · intro a p' he
    unfold liftWW at he
    cases hr : x p.w with
    | ok v w => rw [hr] at he; cases he; exact ⟨h.inv _ _ hr, hi⟩
    | err _ _ => rw [hr] at he; cases he
    | ub => rw [hr] at he; cases he
    | timeout => rw [hr] at he; cases he

/-- The invariant of computations that do not use the output nor `ilen` -/
def WSameOut (w0 : Writer) (i0 : Nat) (c : Comp) : Prop := c.w = w0 ∧ c.ilen = i0

theorem rel_liftC {α : Type} {b0 : List Byte} {x : M Comp α} {i0 : BitVec 64} {p : CompW} (hp : p.Inv b0 i0) (hx : Pres (WSameOut p.w.nat p.ilen.toNat) x) :
    CRel b0 i0 p (liftCW x) x := by
  have h0 := hx p.nat ⟨rfl, rfl⟩
  have key : ∀ c : Comp, WSameOut p.w.nat p.ilen.toNat c → ({ p with c := c } : CompW).nat = c := by
    intro c hc
    unfold CompW.nat
    simp only [← hc.1, ← hc.2]
  have hx0 : liftCW x p = (match x p.nat with
    | .ok a c => .ok a { p with c := c } | .err er c => .err er { p with c := c } | .ub => .ub | .timeout => .timeout) := rfl
  constructor
  · rw [hx0]
    cases hr : x p.nat with
    | ok a c => show Outcome.ok _ _ = _; rw [key c (h0.1 a c hr)]
    | err er c => show Outcome.err _ _ = _; rw [key c (h0.2 er c hr)]
    | ub => rfl
    | timeout => rfl
  · intro a p' he
    rw [hx0] at he
    cases hr : x p.nat with
    | ok v w => rw [hr] at he; cases he; exact ⟨hp.w, hp.ilen⟩
    | err _ _ => rw [hr] at he; cases he
    | ub => rw [hr] at he; cases he
    | timeout => rw [hr] at he; cases he

/-! ## Computations that do not use the output -/

theorem same_other {w0 : Writer} {i0 : Nat} {f : Comp → Option Comp} (hf : ∀ p p', f p = some p' → p'.w = p.w ∧ p'.ilen = p.ilen) :
    Pres (WSameOut w0 i0) (M.update f) :=
  .update fun p p' hp h => ⟨(hf p p' h).1.trans hp.1, (hf p p' h).2.trans hp.2⟩

theorem same_map {α : Type} {o : Option α} {f : α → Comp} {p p' : Comp} (h : o.map f = some p') (hf : ∀ a, (f a).w = p.w ∧ (f a).ilen = p.ilen) :
    p'.w = p.w ∧ p'.ilen = p.ilen := by
  cases o with
  | none => cases h
  | some a => cases h; exact hf a

variable (w0 : Writer) (i0 : Nat)

theorem same_findIndex8 (n : Nat) : Pres (WSameOut w0 i0) (findIndex8 n) := by
  unfold findIndex8
  refine .bind (same_other fun p p' h => same_map h fun _ => ⟨rfl, rfl⟩) fun _ => .bind .get fun p => .bind (.access _) fun k => ?_
  cases p.ht8 k with
  | nil => exact .bind (.access _) fun _ => .pure _
  | cons => exact .bind (same_other fun p p' h => same_map h fun _ => ⟨rfl, rfl⟩) fun _ => .bind (.access _) fun _ => .pure _

theorem same_findIndex4 (n : Nat) : Pres (WSameOut w0 i0) (findIndex4 n) := by
  unfold findIndex4
  refine .bind (same_other fun p p' h => same_map h fun _ => ⟨rfl, rfl⟩) fun _ => .bind .get fun p => .bind (.access _) fun k => ?_
  cases p.ht4 k with
  | nil => exact .bind (.access _) fun _ => .pure _
  | cons => exact .bind (same_other fun p p' h => same_map h fun _ => ⟨rfl, rfl⟩) fun _ => .bind (.access _) fun _ => .pure _

theorem same_findIndex2 (n : Nat) : Pres (WSameOut w0 i0) (findIndex2 n) := by
  unfold findIndex2
  refine .bind (same_other fun p p' h => same_map h fun _ => ⟨rfl, rfl⟩) fun _ => .bind .get fun p => .bind (.access _) fun k => ?_
  cases p.ht2 k with
  | nil => exact .bind (.access _) fun _ => .pure _
  | cons => exact .bind (same_other fun p p' h => same_map h fun _ => ⟨rfl, rfl⟩) fun _ => .bind (.access _) fun _ => .pure _

theorem same_checkActions : ∀ (ts : List Nat) (b : Nat), Pres (WSameOut w0 i0) (checkActions ts b)
  | [], _ => .pure _
  | t :: ts, b => by
    have ih := same_checkActions ts
    have fin : ∀ m : Bool, Pres (WSameOut w0 i0) (if m = true then checkActions ts (b + amount t) else Pure.pure false) :=
      fun _ => .ite (ih _) (.pure _)
    unfold checkActions checkIndex2 checkIndex4 checkIndex8
    dsimp only
    exact .ite (.ite (.bind (.bind (.access _) fun _ => .ite (same_findIndex2 w0 i0 _) (.pure _)) fun _ => fin _)
      (.ite (.bind (.bind (.access _) fun _ => .ite (same_findIndex4 w0 i0 _) (.pure _)) fun _ => fin _)
      (.ite (.bind (.bind (.access _) fun _ => .ite (same_findIndex8 w0 i0 _) (.pure _)) fun _ => fin _)
      (.bind (.pure _) fun _ => fin _)))) (ih _)

theorem same_findTemplate : ∀ k i : Nat, Pres (WSameOut w0 i0) (findTemplate k i)
  | 0, _ => .pure _
  | k + 1, i => by
    unfold findTemplate checkTemplate
    exact .bind (.ite (.pure _) (.bind (.access _) fun _ => same_checkActions w0 i0 _ _)) fun _ => .ite (.pure _) (same_findTemplate k _)

theorem same_getNextData (e : Endian) : Pres (WSameOut w0 i0) (getNextData e) := by
  unfold getNextData
  exact .bind .get fun _ => .bind (.access _) fun _ => .bind (.access _) fun _ => .bind (.access _) fun _ => .bind (.access _) fun _ =>
    .bind (.access _) fun _ => .bind (.access _) fun _ => .bind (.access _) fun _ => .modify fun _ hp => hp

theorem same_replaceHash8 (i d : Nat) : Pres (WSameOut w0 i0) (replaceHash8 i d) := by
  unfold replaceHash8
  exact .bind .get fun _ => .bind (.access _) fun _ => .bind (.modify fun _ hp => hp) fun _ => .bind (.access _) fun _ =>
    .bind (same_other fun p p' h => same_map h fun _ => ⟨rfl, rfl⟩) fun _ => .modify fun _ hp => hp

theorem same_replaceHash4 (i d : Nat) : Pres (WSameOut w0 i0) (replaceHash4 i d) := by
  unfold replaceHash4
  exact .bind .get fun _ => .bind (.access _) fun _ => .bind (.modify fun _ hp => hp) fun _ => .bind (.access _) fun _ =>
    .bind (same_other fun p p' h => same_map h fun _ => ⟨rfl, rfl⟩) fun _ => .modify fun _ hp => hp

theorem same_replaceHash2 (i d : Nat) : Pres (WSameOut w0 i0) (replaceHash2 i d) := by
  unfold replaceHash2
  exact .bind .get fun _ => .bind (.access _) fun _ => .bind (.modify fun _ hp => hp) fun _ => .bind (.access _) fun _ =>
    .bind (same_other fun p p' h => same_map h fun _ => ⟨rfl, rfl⟩) fun _ => .modify fun _ hp => hp

theorem same_updateHashtables : Pres (WSameOut w0 i0) updateHashtables := by
  unfold updateHashtables
  exact .bind .get fun _ => .bind (same_replaceHash8 w0 i0 _ _) fun _ => .bind (same_replaceHash4 w0 i0 _ _) fun _ =>
    .bind (same_replaceHash4 w0 i0 _ _) fun _ => .bind (same_replaceHash2 w0 i0 _ _) fun _ => .bind (same_replaceHash2 w0 i0 _ _) fun _ =>
    .bind (same_replaceHash2 w0 i0 _ _) fun _ => same_replaceHash2 w0 i0 _ _

end Lib842
