import Verif.Model.Hls
import Verif.SpecHls
import Verif.Proofs.OpCode
import Verif.Proofs.RefComp
import Verif.Proofs.Words
/-!
# The HLS tokenizer against the format
-/

namespace Lib842
open Spec

/-! ## `ap_uint` -/

theorem apVal_eq (l : List Bool) : apVal l = bitsVal l := rfl

theorem apGet_top {x : List Bool} {n lo : Nat} (hx : x.length = n) (hn : 1 ≤ n) (hlo : lo < n) :
    apGet x (n - 1) lo = .ok (x.take (n - lo)) := by
  unfold apGet
  rw [if_pos (by omega), hx, Nat.sub_self, List.drop_zero]
  congr 2; omega

theorem apSet_top {x v : List Bool} {n lo : Nat} (hx : x.length = n) (hn : 1 ≤ n) (hlo : lo < n)
    (hv : v.length = n - lo) : apSet x (n - 1) lo v = .ok (v ++ x.drop (n - lo)) := by
  unfold apSet
  rw [if_pos (by omega), hx, Nat.sub_self, List.take_zero, List.nil_append]

theorem apGet_byte {bs : List Byte} (h : bs.length = 16) {k : Nat} (hk : k < 16) :
    apGet (busBits bs) (8 * k + 7) (8 * k) = .ok (bytesBits [bs[k]]) := by
  have hl : (busBits bs).length = 128 := by simp [busBits, h]
  unfold apGet
  rw [if_pos (by omega), hl]
  congr 1
  have h1 := slice_bits bs.reverse (15 - k) 1
  have h2 : (bs.reverse.drop (15 - k)).take 1 = [bs[k]] := by
    rw [List.drop_eq_getElem_cons (by simp; omega), List.take_succ_cons, List.take_zero,
      List.getElem_reverse]
    simp only [h]
    congr 2; omega
  rw [h2] at h1
  rw [h1]
  unfold busBits
  rw [show 8 * (15 - k) = 128 - 1 - (8 * k + 7) by omega, show 8 * 1 = 8 * k + 7 - 8 * k + 1 by omega]

theorem apRanges_bus {bs : List Byte} (h : bs.length = 16) (n k : Nat) (hk : n + k = 16) :
    apRanges (busBits bs) ((List.range' n k).map fun k => (8 * k + 7, 8 * k)) = .ok (bytesBits (bs.drop n)) := by
  induction k generalizing n with
  | zero =>
    rw [List.drop_of_length_le (by omega)]
    rfl
  | succ k ih =>
    rw [List.range'_succ, List.map_cons, apRanges, apGet_byte h (by omega), ih (n + 1) (by omega)]
    simp only [bind, Except.bind, pure, Except.pure]
    rw [← bytesBits_append, List.drop_eq_getElem_cons (by omega : n < bs.length)]
    rfl

theorem swapEndiannessInput_bus {bs : List Byte} (h : bs.length = 16) :
    swapEndiannessInput (busBits bs) = .ok (bytesBits bs) :=
  apRanges_bus h 0 16 rfl

/-! ## The buffer -/

def toIn (t : List Bool × Bool) : HlsIn := { data := t.1, last := t.2 }

/-- `pend` are the bits in the buffer, `ws` the groups still to come. -/
structure HInv (s : HlsS) (pend : List Bool) (ws : List (List Byte)) : Prop where
  buffer : s.buffer = pend ++ List.replicate (266 - s.bits) false
  len : pend.length = s.bits
  le : s.bits ≤ 266
  w16 : ∀ w ∈ ws, w.length = 16
  inp : s.inp = (transfers ws).map toIn
  last : s.last = ws.isEmpty

theorem HInv.length {s : HlsS} {pend : List Bool} {ws : List (List Byte)} (h : HInv s pend ws) :
    s.buffer.length = 266 := by
  have := h.le
  rw [h.buffer, List.length_append, List.length_replicate, h.len]; omega

theorem hlsRefill_ok {s : HlsS} {pend : List Bool} {ws : List (List Byte)} (h : HInv s pend ws) :
    ∃ s' extra ws', hlsRefill s = .ok s' ∧ s'.out = s.out ∧ HInv s' (pend ++ extra) ws' ∧
      pend ++ bytesBits ws.flatten = pend ++ extra ++ bytesBits ws'.flatten ∧
      (s'.last = false → 138 ≤ s'.bits ∨ 128 + s.bits ≤ s'.bits) := by
  have hlen := h.length
  have hpl := h.len
  unfold hlsRefill
  by_cases hc : s.last = false ∧ s.bits < 138
  · rw [if_pos (by simpa using hc)]
    have hl := h.last
    rw [hc.1] at hl
    cases ws with
    | nil => simp at hl
    | cons w ws =>
      have hw := h.w16 w List.mem_cons_self
      rw [h.inp]
      simp only [transfers, List.map_cons, toIn]
      rw [swapEndiannessInput_bus hw]
      simp only [bind, Except.bind, pure, Except.pure]
      rw [if_neg (by omega)]
      have hset : apSet s.buffer (266 - s.bits - 1) (266 - 128 - s.bits) (bytesBits w) =
          .ok (pend ++ bytesBits w ++ List.replicate (266 - (s.bits + 128)) false) := by
        unfold apSet
        rw [if_pos (by rw [length_bytesBits, hw]; omega), hlen,
          show 266 - 1 - (266 - s.bits - 1) = s.bits by omega,
          show 266 - (266 - 128 - s.bits) = s.bits + 128 by omega, h.buffer]
        have e1 : ∀ z : List Bool, (pend ++ z).take s.bits = pend := by
          intro z; rw [← hpl, List.take_left]
        have e2 : ∀ n m k : Nat, n - m = k →
            (pend ++ List.replicate n false).drop (s.bits + m) = List.replicate k false := by
          intro n m k hk
          rw [← hpl, List.drop_append, List.drop_of_length_le (by omega), List.nil_append,
            List.drop_replicate, Nat.add_sub_cancel_left, hk]
        rw [e1, e2 _ 128 (266 - (s.bits + 128)) (by omega)]
      rw [hset]
      have hmod : (s.bits + 128) % 512 = s.bits + 128 := by omega
      simp only [hmod]
      refine ⟨_, bytesBits w, ws, rfl, rfl, ⟨?_, ?_, ?_, ?_, ?_, ?_⟩, ?_, ?_⟩
      · rfl
      · rw [List.length_append, length_bytesBits, hw, hpl]
      · show s.bits + 128 ≤ 266; omega
      · exact fun x hx => h.w16 x (List.mem_cons_of_mem _ hx)
      · rfl
      · rfl
      · rw [List.flatten_cons, bytesBits_append, List.append_assoc]
      · intro _; right; show 128 + s.bits ≤ s.bits + 128; omega
  · rw [if_neg (by simpa using hc)]
    refine ⟨s, [], ws, rfl, rfl, by simpa using h, by simp, ?_⟩
    intro hl; left
    by_contra hlt
    exact hc ⟨hl, by omega⟩

theorem hlsLen_le : ∀ c, c < 32 → hlsParamLength c ≤ 64 := by decide

theorem opEnd_eq : apOpEnd = bitsOf 5 0x1e := by decide

theorem apShl_eq {a b : List Bool} : apShl (a ++ b) a.length = b ++ List.replicate a.length false := by
  unfold apShl
  rw [List.append_assoc, List.drop_left]

/-- Cutting off the bits `g` of the buffer. -/
theorem hlsEmit_ok {s : HlsS} {g pend : List Bool} {ws : List (List Byte)} (h : HInv s (g ++ pend) ws)
    {len : Nat} (hg : g.length = 5 + len) (hlen : len ≤ 64) (last : Bool) :
    ∃ s', hlsEmit s len last = .ok s' ∧
      HInv s' pend ws ∧ s'.bits + g.length = s.bits ∧ s'.last = s.last ∧
      s'.out = s.out ++ [{ data := token g, last := last }] := by
  have hl := h.length
  have hle := h.le
  have hpl := h.len
  rw [List.length_append] at hpl
  unfold hlsEmit
  rw [if_neg (by omega)]
  rw [show (265 : Nat) = 266 - 1 from rfl, apGet_top hl (by omega) (by omega),
    show 266 - (266 - 5 - len) = 5 + len by omega]
  have ht : s.buffer.take (5 + len) = g := by
    rw [h.buffer, ← hg, List.append_assoc, List.take_left]
  rw [ht]
  have hs := apSet_top (x := List.replicate 69 false) (v := g) (n := 69) (lo := 69 - 5 - len)
    (by simp) (by omega) (by omega) (by omega)
  simp only [bind, Except.bind, pure, Except.pure]
  rw [show (68 : Nat) = 69 - 1 from rfl, hs]
  have htok : g ++ (List.replicate 69 false).drop (69 - (69 - 5 - len)) = token g := by
    unfold token
    rw [List.drop_replicate]
    congr 2; omega
  rw [htok]
  have hb : (s.bits + 512 - (5 + len)) % 512 = s.bits - g.length := by
    rw [hg, show s.bits + 512 - (5 + len) = (s.bits - (5 + len)) + 512 by omega, Nat.add_mod_right,
      Nat.mod_eq_of_lt (by omega)]
  refine ⟨_, rfl, ⟨?_, ?_, ?_, h.w16, h.inp, h.last⟩, ?_, rfl, rfl⟩
  · show apShl s.buffer (5 + len) = pend ++ List.replicate (266 - (s.bits + 512 - (5 + len)) % 512) false
    rw [hb, h.buffer, ← hg, List.append_assoc, apShl_eq, List.append_assoc, List.replicate_append_replicate]
    congr 2; omega
  · show pend.length = (s.bits + 512 - (5 + len)) % 512
    rw [hb]; omega
  · show (s.bits + 512 - (5 + len)) % 512 ≤ 266
    rw [hb]; omega
  · show (s.bits + 512 - (5 + len)) % 512 + g.length = s.bits
    rw [hb]; omega

/-- What one piece is, as the tokenizer sees it. -/
def CutAt (g : List Bool) : Prop := 5 ≤ g.length ∧ g.length = 5 + hlsParamLength (bitsVal (g.take 5))

/-- The invariant between iterations. -/
structure HLoop (s : HlsS) (pend : List Bool) (ws : List (List Byte)) : Prop extends HInv s pend ws where
  ge : s.last = false → 69 ≤ s.bits

theorem CutAt.len {g : List Bool} (h : CutAt g) : hlsParamLength (bitsVal (g.take 5)) ≤ 64 := by
  apply hlsLen_le
  have := bitsVal_lt (g.take 5)
  rw [List.length_take, Nat.min_eq_left h.1] at this
  exact this

/-- The next piece is in the buffer. -/
theorem HLoop.split {s : HlsS} {pend : List Bool} {ws : List (List Byte)} (h : HLoop s pend ws)
    {g R : List Bool} (hg : g.length ≤ 69) (hr : pend ++ bytesBits ws.flatten = g ++ R) :
    ∃ pend', pend = g ++ pend' ∧ R = pend' ++ bytesBits ws.flatten := by
  have hle : g.length ≤ pend.length := by
    cases hl : s.last with
    | false => have := h.ge hl; rw [h.len]; omega
    | true =>
      have h2 := h.last
      rw [hl] at h2
      have : ws = [] := List.isEmpty_iff.1 h2.symm
      subst this
      have := congrArg List.length hr
      simp at this
      omega
  have h1 : pend.take g.length = g := by
    have := congrArg (List.take g.length) hr
    rwa [List.take_append_of_le_length hle, List.take_left] at this
  refine ⟨pend.drop g.length, ?_, ?_⟩
  · conv => lhs; rw [← List.take_append_drop g.length pend, h1]
  · have := congrArg (List.drop g.length) hr
    rw [List.drop_append_of_le_length hle, List.drop_left] at this
    exact this.symm

/-- An iteration on a complete piece. -/
theorem hlsIter_piece {s : HlsS} {pend : List Bool} {ws : List (List Byte)} (h : HLoop s pend ws)
    {g R : List Bool} (hg : CutAt g) (hr : pend ++ bytesBits ws.flatten = g ++ R) :
    ∃ s' pend' ws', hlsIter s = .ok (s', g.take 5 == bitsOf 5 0x1e) ∧ HLoop s' pend' ws' ∧
      R = pend' ++ bytesBits ws'.flatten ∧
      s'.out = s.out ++ [{ data := token g, last := g.take 5 == bitsOf 5 0x1e }] := by
  have hlen64 := hg.len
  obtain ⟨hg5, hgl⟩ := hg
  obtain ⟨pend1, rfl, hR⟩ := h.split (by omega) hr
  have hpl := h.len
  rw [List.length_append] at hpl
  have htop : apGet s.buffer 265 261 = .ok (g.take 5) := by
    rw [show (265 : Nat) = 266 - 1 from rfl, apGet_top h.length (by omega) (by omega), h.buffer,
      List.append_assoc, List.take_append_of_le_length (by omega)]
  have hhead : hlsHead s = .ok (s.buffer, g.take 5, hlsParamLength (bitsVal (g.take 5))) := by
    unfold hlsHead
    rw [if_neg (by omega)]
    simp only [bind, Except.bind, pure, Except.pure, htop]
    rw [if_neg (by rw [apVal_eq]; omega), apVal_eq]
  obtain ⟨s1, extra, ws1, h1, ho1, hi1, hb1, hge⟩ := hlsRefill_ok h.toHInv
  rw [List.append_assoc] at hi1
  obtain ⟨s2, h2, hi2, hbits, hl2, ho2⟩ := hlsEmit_ok hi1 hgl hlen64 (g.take 5 == apOpEnd)
  unfold hlsIter
  rw [hhead]
  simp only [bind, Except.bind, pure, Except.pure]
  rw [show ({ s with buffer := s.buffer } : HlsS) = s from rfl, h1]
  simp only
  rw [h2]
  simp only
  refine ⟨s2, pend1 ++ extra, ws1, by rw [opEnd_eq], ⟨hi2, ?_⟩, ?_, ?_⟩
  · intro hl
    rw [hl2] at hl
    have hold : s.last = false := by
      cases hsl : s.last with
      | false => rfl
      | true =>
        have hid : hlsRefill s = .ok s := by unfold hlsRefill; rw [if_neg (by simp [hsl])]
        rw [hid] at h1
        cases h1
        rw [hsl] at hl
        cases hl
    have := h.ge hold
    rcases hge hl with h3 | h3 <;> omega
  · rw [hR]
    have : g ++ (pend1 ++ bytesBits ws.flatten) = g ++ (pend1 ++ extra ++ bytesBits ws1.flatten) := by
      simpa [List.append_assoc] using hb1
    exact List.append_cancel_left this
  · rw [ho2, ho1, opEnd_eq]

/-- An iteration when the input is exhausted and the bits left are no complete piece. -/
theorem hlsIter_cut {s : HlsS} {pend : List Bool} (h : HLoop s pend [])
    (hc : pend.length < 5 ∨ pend.length < 5 + hlsParamLength (bitsVal (pend.take 5))) :
    ∃ s', hlsIter s = .ok (s', true) ∧
      s'.out = s.out ++ [{ data := token (bitsOf 5 0x1e), last := true }] := by
  have hl : s.last = true := h.last
  have hpl := h.len
  have hle := h.le
  have hlen := h.length
  have hset : ∀ b : List Bool, b.length = 266 → apSet b 265 261 apOpEnd = .ok (apOpEnd ++ b.drop 5) :=
    fun b hb => apSet_top hb (by omega) (by omega) rfl
  have hget : ∀ b : List Bool, b.length = 266 → apGet b 265 261 = .ok (b.take 5) :=
    fun b hb => apGet_top hb (by omega) (by omega)
  obtain ⟨rst, hrl, hhead⟩ : ∃ rst : List Bool, rst.length = 261 ∧ hlsHead s = .ok (apOpEnd ++ rst, apOpEnd, 0) := by
    unfold hlsHead
    by_cases h5 : s.bits < 5
    · have hl2 : (apOpEnd ++ s.buffer.drop 5).length = 266 := by
        rw [List.length_append, List.length_drop, hlen]; rfl
      rw [if_pos ⟨hl, h5⟩, hset _ hlen]
      simp only [bind, Except.bind, pure, Except.pure, hget _ hl2]
      rw [show (apOpEnd ++ s.buffer.drop 5).take 5 = apOpEnd from rfl]
      rw [if_pos ⟨hl, by show s.bits < 5 + 0; omega⟩, hset _ hl2]
      refine ⟨s.buffer.drop 5, by rw [List.length_drop, hlen], ?_⟩
      rfl
    · rw [if_neg (by omega)]
      simp only [bind, Except.bind, pure, Except.pure, hget _ hlen]
      have ht : s.buffer.take 5 = pend.take 5 := by
        rw [h.buffer, List.take_append_of_le_length (by omega)]
      rw [ht, if_pos ⟨hl, by rw [apVal_eq]; omega⟩, hset _ hlen]
      exact ⟨s.buffer.drop 5, by rw [List.length_drop, hlen], rfl⟩
  have hrefill : hlsRefill { s with buffer := apOpEnd ++ rst } = .ok { s with buffer := apOpEnd ++ rst } := by
    unfold hlsRefill
    rw [if_neg (by simp [hl])]
  have hbl : (apOpEnd ++ rst).length = 266 := by rw [List.length_append, hrl]; rfl
  unfold hlsIter
  rw [hhead]
  simp only [bind, Except.bind, pure, Except.pure]
  rw [hrefill]
  simp only
  unfold hlsEmit
  rw [if_neg (by omega)]
  simp only [bind, Except.bind, pure, Except.pure, Nat.sub_zero, Nat.add_zero, Nat.reduceSub, hget _ hbl]
  rw [show (apOpEnd ++ rst).take 5 = apOpEnd from rfl]
  refine ⟨_, rfl, ?_⟩
  rw [opEnd_eq]
  rfl

/-! ## Pieces of the format -/

theorem bytes_of_bits : ∀ (n : Nat) (l : List Bool), l.length = 8 * n →
    ∃ bs : List Byte, bs.length = n ∧ bytesBits bs = l := by
  intro n
  induction n with
  | zero => intro l hl; exact ⟨[], rfl, (List.length_eq_zero_iff.1 (by omega)).symm⟩
  | succ n ih =>
    intro l hl
    obtain ⟨bs, hbl, hb⟩ := ih (l.drop 8) (by rw [List.length_drop]; omega)
    have h8 : (l.take 8).length = 8 := by rw [List.length_take]; omega
    have hlt := bitsVal_lt (l.take 8)
    rw [h8] at hlt
    refine ⟨BitVec.ofNat 8 (bitsVal (l.take 8)) :: bs, by rw [List.length_cons, hbl], ?_⟩
    rw [bytesBits_cons, hb, BitVec.toNat_ofNat, Nat.mod_eq_of_lt hlt]
    have := bitsOf_bitsVal (l.take 8)
    rw [h8] at this
    rw [this, List.take_append_drop]

theorem args_of_bits : ∀ (acts : List Action) (l : List Bool), l.length = (acts.map actionBits).sum →
    ∃ args : List Arg, args.map Arg.action = acts ∧ (∀ a ∈ args, a.Valid) ∧ args.flatMap Arg.bits = l := by
  intro acts
  induction acts with
  | nil => intro l hl; exact ⟨[], rfl, by simp, (List.length_eq_zero_iff.1 (by simpa using hl)).symm⟩
  | cons a acts ih =>
    intro l hl
    rw [List.map_cons, List.sum_cons] at hl
    obtain ⟨args, ha, hv, hb⟩ := ih (l.drop (actionBits a)) (by rw [List.length_drop]; omega)
    have ht : (l.take (actionBits a)).length = actionBits a := by rw [List.length_take]; omega
    obtain ⟨x, hx1, hx2, hx3⟩ : ∃ x : Arg, x.action = a ∧ x.Valid ∧ x.bits = l.take (actionBits a) := by
      cases a with
      | D n =>
        obtain ⟨bs, h1, h2⟩ := bytes_of_bits n _ ht
        exact ⟨.data bs, by rw [Arg.action, h1], trivial, h2⟩
      | I n =>
        refine ⟨.index n (bitsVal (l.take (actionBits (.I n)))), rfl, ?_, ?_⟩
        · have := bitsVal_lt (l.take (actionBits (.I n)))
          rw [ht] at this
          exact this
        · have := bitsOf_bitsVal (l.take (actionBits (.I n)))
          rw [ht] at this
          exact this
    refine ⟨x :: args, by rw [List.map_cons, hx1, ha], ?_, ?_⟩
    · intro y hy
      rcases List.mem_cons.1 hy with rfl | h
      · exact hx2
      · exact hv y h
    · rw [List.flatMap_cons, hx3, hb, List.take_append_drop]

theorem hlsLen_template : ∀ c as, templates[c]? = some as →
    hlsParamLength c = (as.map actionBits).sum := by
  intro c as h
  have hd : ∀ c < 26, some (hlsParamLength c) = (templates[c]?).map fun as => (as.map actionBits).sum := by
    decide +kernel
  have := hd c (templates_ok c as h).1
  rw [h] at this
  simpa using this

theorem take5_bitsOf (c : Nat) (l : List Bool) : (bitsOf 5 c ++ l).take 5 = bitsOf 5 c := by
  rw [List.take_append_of_le_length (by rw [length_bitsOf]), List.take_of_length_le (by rw [length_bitsOf])]

theorem cutAt_of {c : Nat} {l : List Bool} (hc : c < 32) (hl : l.length = hlsParamLength c) :
    CutAt (bitsOf 5 c ++ l) := by
  refine ⟨by simp, ?_⟩
  rw [take5_bitsOf, bitsVal_bitsOf, Nat.mod_eq_of_lt (by omega), List.length_append, length_bitsOf, hl]

theorem cutAt_code {c : Nat} (hc : c < 32) (hl : hlsParamLength c = 0) : CutAt (bitsOf 5 c) := by
  have := cutAt_of (l := []) hc (by rw [hl]; rfl)
  rwa [List.append_nil] at this

theorem cutAt_op {op : Op} (hv : op.Valid) (hs : op.isShort = false) :
    CutAt op.bits ∧ op.bits.take 5 ≠ bitsOf 5 0x1e := by
  have hc := opCode_lt hv
  rw [op_bits_eq]
  refine ⟨cutAt_of hc.1 ?_, ?_⟩
  · cases op with
    | template code args =>
      simp only [opTail, opCode]
      rw [hlsLen_template _ _ hv.1, List.length_flatMap, List.map_map]
      congr 2
      funext a
      exact arg_bits_length a
    | rep n => simp only [opTail, opCode, length_bitsOf]; rfl
    | zeros => simp only [opTail, opCode]; rfl
    | short bs => simp [Op.isShort] at hs
  · rw [take5_bitsOf]
    intro h
    exact hc.2 (bitsOf_inj h hc.1 (by omega))

theorem cutAt_piece {g : List Bool} (h : Piece g) : CutAt g ∧ g.take 5 ≠ bitsOf 5 0x1e := by
  rcases h with ⟨op, hv, hs, rfl⟩ | ⟨c, hc, rfl⟩
  · exact cutAt_op hv hs
  · rcases hc with rfl | rfl | rfl
    all_goals exact ⟨cutAt_code (by omega) (by decide), by decide⟩

theorem cutAt_end : CutAt (bitsOf 5 0x1e) := cutAt_code (by omega) (by decide)

theorem piece_of_cutAt {g : List Bool} (h : CutAt g) (hne : g.take 5 ≠ bitsOf 5 0x1e) : Piece g := by
  obtain ⟨h5, hl⟩ := h
  have ht : (g.take 5).length = 5 := by rw [List.length_take]; omega
  have hlt := bitsVal_lt (g.take 5)
  have hb := bitsOf_bitsVal (g.take 5)
  rw [ht] at hlt hb
  have hsplit : g = bitsOf 5 (bitsVal (g.take 5)) ++ g.drop 5 := by rw [hb, List.take_append_drop]
  have hdl : (g.drop 5).length = hlsParamLength (bitsVal (g.take 5)) := by rw [List.length_drop]; omega
  generalize bitsVal (g.take 5) = c at *
  by_cases h26 : c < 26
  · have hlt : c < templates.length := by simpa [templates] using h26
    have hget : templates[c]? = some templates[c] := List.getElem?_eq_getElem hlt
    rw [hlsLen_template _ _ hget] at hdl
    obtain ⟨args, ha, hv, hab⟩ := args_of_bits _ _ hdl
    left
    refine ⟨.template c args, ⟨by rw [ha, hget], hv⟩, rfl, ?_⟩
    rw [hsplit, ← hab]
    rfl
  have hnil : hlsParamLength c = 0 → g = bitsOf 5 c := by
    intro h0
    rw [h0] at hdl
    rw [hsplit, List.length_eq_zero_iff.1 hdl, List.append_nil]
  have h6 : c = 26 ∨ c = 27 ∨ c = 28 ∨ c = 29 ∨ c = 30 ∨ c = 31 := by omega
  rcases h6 with rfl | rfl | rfl | rfl | rfl | rfl
  · exact .inr ⟨_, .inl rfl, hnil (by decide)⟩
  · left
    have h6 : (g.drop 5).length = 6 := hdl
    have hlt := bitsVal_lt (g.drop 5)
    have hb2 := bitsOf_bitsVal (g.drop 5)
    rw [h6] at hlt hb2
    refine ⟨.rep (bitsVal (g.drop 5)), hlt, rfl, ?_⟩
    simp only [Op.bits]
    rw [hb2]
    exact hsplit
  · exact .inl ⟨.zeros, trivial, rfl, hnil (by decide)⟩
  · exact .inr ⟨_, .inr (.inl rfl), hnil (by decide)⟩
  · exact absurd hb.symm hne
  · exact .inr ⟨_, .inr (.inr rfl), hnil (by decide)⟩

/-! ## The loop -/

/-- The token written for a piece. -/
def pieceTok (g : List Bool) : HlsTok := { data := token g, last := false }

/-- The token written at the end. -/
def endTok : HlsTok := { data := token (bitsOf 5 0x1e), last := true }

theorem hlsLoop_pieces : ∀ (segs : List (List Bool)) (fuel : Nat) (s : HlsS) (pend : List Bool)
    (ws : List (List Byte)) (R : List Bool), HLoop s pend ws →
    (∀ g ∈ segs, CutAt g ∧ g.take 5 ≠ bitsOf 5 0x1e) →
    pend ++ bytesBits ws.flatten = segs.flatten ++ (bitsOf 5 0x1e ++ R) →
    segs.length < fuel → hlsLoop fuel s = some (.ok (s.out ++ segs.map pieceTok ++ [endTok])) := by
  intro segs
  induction segs with
  | nil =>
    intro fuel s pend ws R h _ hr hf
    obtain ⟨f, rfl⟩ : ∃ f, fuel = f + 1 := ⟨fuel - 1, by simp at hf; omega⟩
    obtain ⟨s', p', ws', h1, _, _, ho⟩ := hlsIter_piece h cutAt_end hr
    rw [show ((bitsOf 5 0x1e).take 5 == bitsOf 5 0x1e) = true by decide] at h1 ho
    rw [hlsLoop, h1]
    simp only
    rw [ho]
    simp [endTok]
  | cons g segs ih =>
    intro fuel s pend ws R h hs hr hf
    obtain ⟨f, rfl⟩ : ∃ f, fuel = f + 1 := ⟨fuel - 1, by simp at hf; omega⟩
    obtain ⟨hg, hne⟩ := hs g List.mem_cons_self
    rw [List.flatten_cons, List.append_assoc] at hr
    obtain ⟨s', p', ws', h1, hi, hR, ho⟩ := hlsIter_piece h hg hr
    have hb : (g.take 5 == bitsOf 5 0x1e) = false := by simpa using hne
    rw [hb] at h1 ho
    rw [hlsLoop, h1]
    simp only
    rw [ih f s' p' ws' R hi (fun x hx => hs x (List.mem_cons_of_mem _ hx)) hR.symm
      (by simp at hf; omega), ho]
    simp [pieceTok]

theorem hlsShort {A : List Bool} (hex : ¬ ∃ g R, CutAt g ∧ A = g ++ R) :
    (A.length < 5 ∨ A.length < 5 + hlsParamLength (bitsVal (A.take 5))) ∧ A.length < 69 := by
  have hshort : A.length < 5 ∨ A.length < 5 + hlsParamLength (bitsVal (A.take 5)) := by
    by_contra hc
    have h5 : 5 ≤ A.length := by omega
    have hl : 5 + hlsParamLength (bitsVal (A.take 5)) ≤ A.length := by omega
    refine hex ⟨A.take (5 + hlsParamLength (bitsVal (A.take 5))),
      A.drop (5 + hlsParamLength (bitsVal (A.take 5))), ⟨?_, ?_⟩, (List.take_append_drop _ _).symm⟩
    · rw [List.length_take]; omega
    · rw [List.take_take, Nat.min_eq_left (by omega), List.length_take, Nat.min_eq_left hl]
  refine ⟨hshort, ?_⟩
  rcases hshort with h1 | h1
  · omega
  · by_contra hge
    have : (A.take 5).length = 5 := by rw [List.length_take]; omega
    have h2 := bitsVal_lt (A.take 5)
    rw [this] at h2
    have := hlsLen_le _ h2
    omega

theorem hlsLoop_total : ∀ (n fuel : Nat) (s : HlsS) (pend : List Bool) (ws : List (List Byte)),
    HLoop s pend ws → (pend ++ bytesBits ws.flatten).length ≤ n → n < fuel →
    ∃ (segs : List (List Bool)) (tail : List Bool), pend ++ bytesBits ws.flatten = segs.flatten ++ tail ∧
      (∀ g ∈ segs, CutAt g ∧ g.take 5 ≠ bitsOf 5 0x1e) ∧
      hlsLoop fuel s = some (.ok (s.out ++ segs.map pieceTok ++ [endTok])) ∧
      ((∃ R, tail = bitsOf 5 0x1e ++ R) ∨ ∀ g R, CutAt g → tail ≠ g ++ R) := by
  intro n
  induction n using Nat.strongRecOn with
  | ind n ih =>
    intro fuel s pend ws h hn hf
    obtain ⟨f, rfl⟩ : ∃ f, fuel = f + 1 := ⟨fuel - 1, by omega⟩
    by_cases hex : ∃ g R, CutAt g ∧ pend ++ bytesBits ws.flatten = g ++ R
    · obtain ⟨g, R, hg, hr⟩ := hex
      by_cases hne : g.take 5 = bitsOf 5 0x1e
      · have hge : g = bitsOf 5 0x1e := by
          have h2 := hg.2
          rw [hne] at h2
          have : g.length = 5 := h2
          rw [← hne, List.take_of_length_le (by omega)]
        subst hge
        refine ⟨[], pend ++ bytesBits ws.flatten, rfl, by simp, ?_, .inl ⟨R, hr⟩⟩
        exact hlsLoop_pieces [] (f + 1) s pend ws R h (by simp) hr (by simp)
      · obtain ⟨s', p', ws', h1, hi, hR, ho⟩ := hlsIter_piece h hg hr
        have hb : (g.take 5 == bitsOf 5 0x1e) = false := by simpa using hne
        rw [hb] at h1 ho
        have hlen := congrArg List.length hr
        rw [List.length_append (as := g)] at hlen
        have hg5 := hg.1
        obtain ⟨segs, tail, he, hs, hrun, ht⟩ := ih R.length (by omega) f s' p' ws' hi
          (by rw [← hR]) (by omega)
        refine ⟨g :: segs, tail, ?_, ?_, ?_, ht⟩
        · rw [hr, List.flatten_cons, List.append_assoc, ← he, hR]
        · intro x hx
          rcases List.mem_cons.1 hx with rfl | hx
          · exact ⟨hg, hne⟩
          · exact hs x hx
        · rw [hlsLoop, h1]
          simp only
          rw [hrun, ho]
          simp [pieceTok]
    · -- no complete piece is left: the input is exhausted
      have hall : ∀ g R, CutAt g → pend ++ bytesBits ws.flatten ≠ g ++ R :=
        fun g R hg hr => hex ⟨g, R, hg, hr⟩
      obtain ⟨hshort, hlt⟩ := hlsShort hex
      have hlast : s.last = true := by
        cases hl : s.last with
        | true => rfl
        | false =>
          have := h.ge hl
          have := h.len
          rw [List.length_append] at hlt
          omega
      have hws : ws = [] := by
        have h2 := h.last
        rw [hlast] at h2
        exact List.isEmpty_iff.1 h2.symm
      subst hws
      have hnil : pend ++ bytesBits ([] : List (List Byte)).flatten = pend := by
        simp [bytesBits_nil]
      rw [hnil] at hshort hall ⊢
      obtain ⟨s', h1, ho⟩ := hlsIter_cut h hshort
      refine ⟨[], pend, rfl, by simp, ?_, .inr hall⟩
      rw [hlsLoop, h1]
      simp only
      rw [ho]
      simp [endTok]

/-- The start of the loop. -/
theorem hlsStart_ok {w : List Byte} {ws : List (List Byte)} (hw : ∀ x ∈ w :: ws, x.length = 16) :
    ∃ s, hlsStart ((transfers (w :: ws)).map toIn) = .ok s ∧ s.out = [] ∧ HLoop s (bytesBits w) ws := by
  have h16 := hw w List.mem_cons_self
  unfold hlsStart
  simp only [transfers, List.map_cons, toIn]
  rw [swapEndiannessInput_bus h16]
  simp only [bind, Except.bind, pure, Except.pure]
  rw [show (265 : Nat) = 266 - 1 from rfl,
    apSet_top List.length_replicate (by omega) (by omega) (by rw [length_bytesBits, h16])]
  simp only
  refine ⟨_, rfl, rfl, ⟨⟨?_, ?_, ?_, ?_, ?_, ?_⟩, ?_⟩⟩
  · show bytesBits w ++ (List.replicate 266 false).drop 128 = bytesBits w ++ List.replicate (266 - 128) false
    rw [List.drop_replicate]
  · rw [length_bytesBits, h16]
  · show 128 ≤ 266; omega
  · exact fun x hx => hw x (List.mem_cons_of_mem _ hx)
  · rfl
  · rfl
  · intro _; show 69 ≤ 128; omega

theorem length_transfers (ws : List (List Byte)) : (transfers ws).length = ws.length := by
  induction ws with
  | nil => rfl
  | cons a ws ih => simp [transfers, ih]

theorem hlsTokenizer_eq {w : List Byte} {ws : List (List Byte)} (hw : ∀ x ∈ w :: ws, x.length = 16) :
    ∃ s, hlsTokenizer ((transfers (w :: ws)).map toIn) = hlsLoop (128 * (ws.length + 1) + 1) s ∧
      s.out = [] ∧ HLoop s (bytesBits w) ws := by
  obtain ⟨s, h1, h2, h3⟩ := hlsStart_ok hw
  refine ⟨s, ?_, h2, h3⟩
  unfold hlsTokenizer
  rw [h1, List.length_map, length_transfers, List.length_cons]

theorem length_flatten16 {ws : List (List Byte)} (h : ∀ w ∈ ws, w.length = 16) :
    ws.flatten.length = 16 * ws.length := by
  induction ws with
  | nil => rfl
  | cons a ws ih =>
    have := h a List.mem_cons_self
    have := ih fun x hx => h x (List.mem_cons_of_mem _ hx)
    simp only [List.flatten_cons, List.length_append, List.length_cons]
    omega

/-- If the loop goes on, a piece has been consumed. -/
theorem hlsIter_next {s s' : HlsS} {pend : List Bool} {ws : List (List Byte)} (h : HLoop s pend ws)
    (hs : hlsIter s = .ok (s', false)) :
    ∃ g pend' ws', CutAt g ∧ g.take 5 ≠ bitsOf 5 0x1e ∧
      pend ++ bytesBits ws.flatten = g ++ (pend' ++ bytesBits ws'.flatten) ∧ HLoop s' pend' ws' ∧
      s'.out = s.out ++ [pieceTok g] := by
  by_cases hex : ∃ g R, CutAt g ∧ pend ++ bytesBits ws.flatten = g ++ R
  · obtain ⟨g, R, hg, hr⟩ := hex
    obtain ⟨s1, p', ws', h1, hi, hR, ho⟩ := hlsIter_piece h hg hr
    rw [hs] at h1
    simp only [Except.ok.injEq, Prod.mk.injEq] at h1
    obtain ⟨rfl, hb⟩ := h1
    rw [← hb] at ho
    refine ⟨g, p', ws', hg, ?_, by rw [hr, hR], hi, ho⟩
    simpa using hb.symm
  · exfalso
    have hlt := hlsShort hex
    have hlast : s.last = true := by
      cases hl : s.last with
      | true => rfl
      | false =>
        have := h.ge hl
        have := h.len
        have h3 := hlt.2
        rw [List.length_append] at h3
        omega
    · have hws : ws = [] := by
        have h2 := h.last
        rw [hlast] at h2
        exact List.isEmpty_iff.1 h2.symm
      subst hws
      have hnil : pend ++ bytesBits ([] : List (List Byte)).flatten = pend := by
        simp [bytesBits_nil]
      rw [hnil] at hlt
      obtain ⟨s1, h1, _⟩ := hlsIter_cut h hlt.1
      rw [hs] at h1
      simp at h1

end Lib842
