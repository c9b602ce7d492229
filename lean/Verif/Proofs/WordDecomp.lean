import Verif.Proofs.WordRel
/-!
# `sw842_decompress` with machine arithmetic does what it does with natural numbers
-/

namespace Lib842

/-- The words as natural numbers -/
def DecompW.nat (p : DecompW) : Decomp :=
  { inp := p.inp, pos := p.pos, bit := p.bit.toNat, ilen := p.ilen.toNat, buf := p.buf, out := p.out, olen := p.olen.toNat }

/-- What the fields of the state have to do with each other -/
structure DecompW.Inv (p : DecompW) : Prop where
  bit : p.bit.toNat < 8
  ilen : p.pos + p.ilen.toNat = p.inp.length
  olen : p.out + p.olen.toNat = p.buf.length
  small : p.inp.length < 2 ^ 63 ∧ p.buf.length < 2 ^ 63

abbrev DRel {α : Type} := @RelAt DecompW Decomp α DecompW.nat DecompW.Inv

theorem wlt {w : Nat} {a b : BitVec w} : a < b ↔ a.toNat < b.toNat := BitVec.lt_def
theorem wle {w : Nat} {a b : BitVec w} : a ≤ b ↔ a.toNat ≤ b.toNat := BitVec.le_def

theorem rel_split {rec : BitVec 8 → M DecompW (BitVec 64)} {rec' : Nat → M Decomp (BitVec 64)}
    (hr : ∀ p n, p.Inv → DRel p (rec n) (rec' n.toNat)) {p : DecompW} (hp : p.Inv) (n s : BitVec 8) :
    DRel p (splitNextBitsW rec n s) (splitNextBits rec' n.toNat s.toNat) := by
  unfold splitNextBitsW splitNextBits
  refine .ite wle (fun _ => .fail _) fun h => ?_
  rw [wle] at h
  have hs : (n - s).toNat = n.toNat - s.toNat := by
    rw [BitVec.toNat_sub]
    have := n.isLt
    omega
  rw [← hs]
  exact .bind (hr p _ hp) fun a p' _ hp' => .bind (hr p' _ hp') fun b p'' _ hp'' => .pure hp'' _

theorem rel_nextBitsF (e : Endian) : ∀ (fuel : Nat) (p : DecompW) (n : BitVec 8), p.Inv →
    DRel p (nextBitsFW e fuel n) (nextBitsF e fuel n.toNat)
  | 0, _, _, _ => .timeout
  | fuel + 1, p, n, hp => by
    have hr : ∀ p n, p.Inv → DRel p (nextBitsFW e fuel n) (nextBitsF e fuel n.toNat) := fun p n h => rel_nextBitsF e fuel p n h
    unfold nextBitsFW nextBitsF
    refine .get ?_
    refine .ite (by rw [gt_iff_lt, wlt]; exact Iff.rfl) (fun _ => .fail _) fun hn => ?_
    have hn : n.toNat ≤ 64 := by
      rw [gt_iff_lt, wlt] at hn
      simpa using hn
    have hb : (p.bit + n).toNat = p.bit.toNat + n.toNat := by
      rw [BitVec.toNat_add]
      have := hp.bit
      omega
    have hb' : p.nat.bit + n.toNat = (p.bit + n).toNat := hb.symm
    rw [hb']
    refine .ite (by rw [gt_iff_lt, wlt]; exact Iff.rfl) (fun _ => rel_split hr hp n 32#8) fun _ => ?_
    refine .ite (by rw [gt_iff_lt, wlt, wlt, wle]; exact Iff.rfl) (fun _ => rel_split hr hp n 16#8) fun _ => ?_
    refine .ite (by rw [gt_iff_lt, wlt, wlt, wle]; exact Iff.rfl) (fun _ => rel_split hr hp n 8#8) fun _ => ?_
    refine .ite (by rw [gt_iff_lt, wlt, divRoundUp8W_toNat]; exact Iff.rfl) (fun _ => .fail _) fun hl => ?_
    rw [gt_iff_lt, wlt, divRoundUp8W_toNat, divRoundUp] at hl
    refine .bind (.access hp rfl) fun d p' hd hp' => ?_
    have hpp : p' = p := by
      unfold M.access at hd
      split at hd
      · cases hd; rfl
      · cases hd
    subst hpp
    refine .bind (.modify ?_ ?_) fun _ p'' _ hp'' => .pure hp'' _
    · have h7 : p'.bit + n > 7#8 ↔ p'.nat.bit + n.toNat > 7 := by
        rw [gt_iff_lt, wlt, hb]; exact Iff.rfl
      have hq : ((p'.bit + n) / 8#8).toNat = (p'.nat.bit + n.toNat) / 8 := by
        rw [BitVec.toNat_udiv, hb]; rfl
      have hm : ((p'.bit + n) % 8#8).toNat = (p'.nat.bit + n.toNat) % 8 := by
        rw [BitVec.toNat_umod, hb]; rfl
      have hs : (p'.ilen - ((p'.bit + n) / 8#8).setWidth 64).toNat = p'.nat.ilen - (p'.nat.bit + n.toNat) / 8 := by
        rw [BitVec.toNat_sub, BitVec.toNat_setWidth, hq]
        have := p'.ilen.isLt
        show (2 ^ 64 - (p'.bit.toNat + n.toNat) / 8 % 2 ^ 64 + p'.ilen.toNat) % 2 ^ 64 = p'.ilen.toNat - (p'.bit.toNat + n.toNat) / 8
        omega
      by_cases h : p'.nat.bit + n.toNat > 7
      · simp only [if_pos (h7.2 h), if_pos h]
        unfold DecompW.nat at *
        simp only [Decomp.mk.injEq, true_and]
        exact ⟨by rw [hq], hm, hs, trivial⟩
      · simp only [if_neg (fun hc => h (h7.1 hc)), if_neg h]
        unfold DecompW.nat at *
        simp only [hb]
    · have h7 : p'.bit + n > 7#8 ↔ p'.bit.toNat + n.toNat > 7 := by
        rw [gt_iff_lt, wlt, hb]; exact Iff.rfl
      simp only
      split
      case isTrue h =>
        have hq : ((p'.bit + n) / 8#8).toNat = (p'.bit.toNat + n.toNat) / 8 := by
          rw [BitVec.toNat_udiv, hb]; rfl
        have hm : ((p'.bit + n) % 8#8).toNat = (p'.bit.toNat + n.toNat) % 8 := by
          rw [BitVec.toNat_umod, hb]; rfl
        refine ⟨?_, ?_, hp.olen, hp.small⟩
        · show ((p'.bit + n) % 8#8).toNat < 8
          omega
        · show p'.pos + ((p'.bit + n) / 8#8).toNat + (p'.ilen - ((p'.bit + n) / 8#8).setWidth 64).toNat = p'.inp.length
          rw [BitVec.toNat_sub, BitVec.toNat_setWidth, hq]
          have := hp.ilen
          have := p'.ilen.isLt
          omega
      case isFalse h =>
        refine ⟨?_, hp.ilen, hp.olen, hp.small⟩
        show (p'.bit + n).toNat < 8
        have := mt h7.2 h
        omega

theorem rel_nextBits (e : Endian) {p : DecompW} (hp : p.Inv) (n : BitVec 8) : DRel p (nextBitsW e n) (nextBits e n.toNat) :=
  rel_nextBitsF e _ p n hp

theorem rel_emit {p : DecompW} (hp : p.Inv) (bs : List Byte) : DRel p (emitW bs) (emit bs) := by
  unfold emitW emit
  have key : ∀ (x : M DecompW Unit) (y : M Decomp Unit), x p = (match writeBytes p.buf p.out bs with
      | some b => .ok () { p with buf := b, out := p.out + bs.length, olen := p.olen - BitVec.ofNat 64 bs.length }
      | none => .ub) → y p.nat = (match writeBytes p.buf p.out bs with
      | some b => .ok () { p.nat with buf := b, out := p.out + bs.length, olen := p.olen.toNat - bs.length }
      | none => .ub) → DRel p x y := by
    intro x y hx hy
    have hi := hp.olen
    have hs := hp.small
    unfold writeBytes at hx hy
    by_cases hc : p.out + bs.length ≤ p.buf.length
    · rw [if_pos hc] at hx hy
      have hsub : (p.olen - BitVec.ofNat 64 bs.length).toNat = p.olen.toNat - bs.length := by
        rw [BitVec.toNat_sub, BitVec.toNat_ofNat]
        have := p.olen.isLt
        omega
      constructor
      · rw [hx, hy]
        simp only [Outcome.mapS, DecompW.nat, hsub]
      · intro a p' he
        rw [hx] at he
        simp only [Outcome.ok.injEq] at he
        rw [← he.2]
        refine ⟨hp.bit, hp.ilen, ?_, hs.1, ?_⟩
        · simp only [hsub, List.length_append, List.length_take, List.length_drop]
          omega
        · simp only [List.length_append, List.length_take, List.length_drop]
          omega
    · rw [if_neg hc] at hx hy
      constructor
      · rw [hx, hy]; rfl
      · intro a p' he
        rw [hx] at he
        cases he
  apply key
  · show M.bind _ _ p = _
    unfold M.bind M.update
    cases h : writeBytes p.buf p.out bs <;> simp only [h, Option.map] <;> rfl
  · show M.bind _ _ p.nat = _
    unfold M.bind M.update
    have hw : writeBytes p.nat.buf p.nat.out bs = writeBytes p.buf p.out bs := rfl
    cases h : writeBytes p.buf p.out bs <;> rw [h] at hw <;> simp only [hw, Option.map] <;> rfl

theorem rel_doData (e : Endian) {p : DecompW} (hp : p.Inv) (n : BitVec 8) (hn : n.toNat ≤ 15) : DRel p (doDataW e n) (doData e n.toNat) := by
  unfold doDataW doData
  refine .get (.ite ?_ (fun _ => .fail _) fun _ => ?_)
  · rw [gt_iff_lt, wlt, BitVec.toNat_setWidth, Nat.mod_eq_of_lt (by omega)]
    exact Iff.rfl
  · have h8 : n.toNat * 8 = (n * 8#8).toNat := by
      rw [BitVec.toNat_mul]
      show n.toNat * 8 = n.toNat * 8 % 256
      omega
    rw [h8]
    refine .bind (rel_nextBits e hp _) fun v p' _ hp' => ?_
    refine .ite (BitVec.toNat_inj.symm) (fun _ => rel_emit hp' _) fun _ => ?_
    refine .ite (BitVec.toNat_inj.symm) (fun _ => rel_emit hp' _) fun _ => ?_
    exact .ite (BitVec.toNat_inj.symm) (fun _ => rel_emit hp' _) fun _ => .fail _

/-- The offset of an index of at most 9 bits -/
theorem indexOffsetW_toNat (index size fsize total : BitVec 64) (k : Nat) (hk : 3 ≤ k ∧ k ≤ 11) (hf : fsize.toNat = 2 ^ k) (hi : index.toNat < 2 ^ 9)
    (hs : size.toNat ≤ 8) (ht : total.toNat < 2 ^ 63) :
    (indexOffsetW index size fsize total).toNat = indexOffset index.toNat size.toNat (2 ^ k) total.toNat ∧
    (indexOffsetW index size fsize total).toNat < 2 ^ 63 + 2 ^ 13 := by
  have hmul : index.toNat * size.toNat ≤ 2 ^ 9 * 8 := Nat.mul_le_mul (by omega) hs
  have hm : (index * size).toNat = index.toNat * size.toNat := by
    rw [BitVec.toNat_mul]
    omega
  have hkk : 2 ^ k ≤ 2 ^ 11 := Nat.pow_le_pow_right (by decide) hk.2
  have hk0 : 2 ^ 3 ≤ 2 ^ k := Nat.pow_le_pow_right (by decide) hk.1
  have hr := roundDownW_toNat total k (by omega) fsize hf
  unfold indexOffsetW indexOffset
  simp only
  have hgt : total > fsize ↔ total.toNat > 2 ^ k := by rw [gt_iff_lt, wlt, hf]
  by_cases hc : total.toNat > 2 ^ k
  · rw [if_pos (hgt.2 hc), if_pos hc]
    have hmod : total.toNat % 2 ^ k < 2 ^ k := Nat.mod_lt _ (Nat.two_pow_pos k)
    have hle : total.toNat % 2 ^ k ≤ total.toNat := Nat.mod_le _ _
    have hge : 2 ^ k ≤ total.toNat - total.toNat % 2 ^ k := by
      have := Nat.div_add_mod total.toNat (2 ^ k)
      have h1 : 1 ≤ total.toNat / 2 ^ k := (Nat.le_div_iff_mul_le (Nat.two_pow_pos k)).2 (by omega)
      have : 2 ^ k * 1 ≤ 2 ^ k * (total.toNat / 2 ^ k) := Nat.mul_le_mul_left _ h1
      omega
    have hp : (total - roundDownW total fsize).toNat = total.toNat - roundDown total.toNat (2 ^ k) := by
      rw [BitVec.toNat_sub, hr]
      unfold roundDown
      omega
    have hsec : (roundDownW total fsize - fsize).toNat = roundDown total.toNat (2 ^ k) - 2 ^ k := by
      rw [BitVec.toNat_sub, hr, hf]
      unfold roundDown
      omega
    have hcmp : index * size ≥ total - roundDownW total fsize ↔ index.toNat * size.toNat ≥ total.toNat - roundDown total.toNat (2 ^ k) := by
      rw [ge_iff_le, wle, hp, hm]
    by_cases hd : index.toNat * size.toNat ≥ total.toNat - roundDown total.toNat (2 ^ k)
    · rw [if_pos (hcmp.2 hd), if_pos hd, BitVec.toNat_add, hsec, hm]
      unfold roundDown
      omega
    · rw [if_neg (fun h => hd (hcmp.1 h)), if_neg hd, BitVec.toNat_add, hr, hm]
      unfold roundDown
      omega
  · rw [if_neg (fun h => hc (hgt.1 h)), if_neg hc, hm]
    omega

theorem and_genmask_lt (d : BitVec 64) : ∀ n : Nat, 1 ≤ n → n ≤ 9 → (d &&& genmask (n - 1) 0).toNat < 2 ^ n := by
  intro n h1 h9
  have : ∀ n, n < 10 → 1 ≤ n → (genmask (n - 1) 0).toNat < 2 ^ n := by decide +kernel
  rw [BitVec.toNat_and]
  exact Nat.lt_of_le_of_lt Nat.and_le_right (this n (by omega) h1)

/-- Values of at most 9 bits, read in one piece -/
theorem nextBitsW_lt (e : Endian) {p p' : DecompW} {n : BitVec 8} {v : BitVec 64} (hp : p.Inv) (hn : 1 ≤ n.toNat ∧ n.toNat ≤ 9)
    (h : nextBitsW e n p = .ok v p') : v.toNat < 2 ^ n.toNat := by
  have hb : (p.bit + n).toNat = p.bit.toNat + n.toNat := by
    rw [BitVec.toNat_add]
    have := hp.bit
    omega
  have hbb := hp.bit
  unfold nextBitsW nextBitsFW at h
  change (if n > 64#8 then _ else _ : M DecompW (BitVec 64)) p = _ at h
  rw [if_neg (by rw [gt_iff_lt, wlt]; show ¬ 64 < n.toNat; omega), if_neg (by rw [gt_iff_lt, wlt, hb]; show ¬ 64 < _; omega),
    if_neg (by rw [gt_iff_lt, wlt, wlt, hb]; show ¬ (_ ∧ 32 < _ ∧ _); omega),
    if_neg (by rw [gt_iff_lt, wlt, wlt, hb]; show ¬ (_ ∧ 16 < _ ∧ _); omega)] at h
  split at h
  · cases h
  · change M.bind _ _ p = _ at h
    unfold M.bind M.access at h
    split at h
    case h_1 d s heq =>
      change Outcome.ok (d &&& genmask (n.toNat - 1) 0) _ = _ at h
      simp only [Outcome.ok.injEq] at h
      rw [← h.1]
      exact and_genmask_lt d _ hn.1 hn.2
    all_goals cases h

theorem wtotal {p : DecompW} (hp : p.Inv) : (roundDownW (BitVec.ofNat 64 p.out) 8#64).toNat = roundDown p.out 8 := by
  have := roundDownW_toNat (BitVec.ofNat 64 p.out) 3 (by decide) 8#64 rfl
  rw [this, BitVec.toNat_ofNat, Nat.mod_eq_of_lt (by have := hp.olen; have := hp.small; omega)]

theorem rel_doIndexN (e : Endian) {p : DecompW} (hp : p.Inv) (size bits : BitVec 8) (fsize : BitVec 64) (k : Nat) (hk : 3 ≤ k ∧ k ≤ 11)
    (hf : fsize.toNat = 2 ^ k) (hs : size.toNat ≤ 8) (hb : 1 ≤ bits.toNat ∧ bits.toNat ≤ 9) :
    DRel p (doIndexNW e size bits fsize) (doIndexN e size.toNat bits.toNat (2 ^ k)) := by
  unfold doIndexNW doIndexN
  refine .get (.bind (rel_nextBits e hp bits) fun index p' hidx hp' => ?_)
  have hi : index.toNat < 2 ^ 9 := Nat.lt_of_lt_of_le (nextBitsW_lt e hp hb hidx) (Nat.pow_le_pow_right (by decide) hb.2)
  have hsz : (size.setWidth 64).toNat = size.toNat := by
    rw [BitVec.toNat_setWidth, Nat.mod_eq_of_lt (by omega)]
  have ht := wtotal hp
  have htl : (roundDownW (BitVec.ofNat 64 p.out) 8#64).toNat < 2 ^ 63 := by
    rw [ht]
    unfold roundDown
    have := hp.olen; have := hp.small; omega
  obtain ⟨ho, hol⟩ := indexOffsetW_toNat index (size.setWidth 64) fsize _ k hk hf hi (by omega) htl
  rw [ht, hsz] at ho
  simp only
  have hadd : (indexOffsetW index (size.setWidth 64) fsize (roundDownW (BitVec.ofNat 64 p.out) 8#64) + size.setWidth 64).toNat =
      indexOffset index.toNat size.toNat (2 ^ k) (roundDown p.out 8) + size.toNat := by
    rw [BitVec.toNat_add, hsz, ← ho]
    omega
  refine .ite (by rw [gt_iff_lt, wlt, hadd, ht]; exact Iff.rfl) (fun _ => .fail _) fun _ => .get (.ite ?_ (fun _ => .fail _) fun _ => ?_)
  · rw [gt_iff_lt, wlt, hsz]; exact Iff.rfl
  · refine .bind (.access hp' ?_) fun bs p'' _ hp'' => rel_emit hp'' bs
    rw [ho]
    rfl

theorem rel_doIndex (e : Endian) {p : DecompW} (hp : p.Inv) (n : BitVec 8) : DRel p (doIndexW e n) (doIndex e n.toNat) := by
  unfold doIndexW doIndex
  refine .ite (BitVec.toNat_inj.symm) (fun _ => ?_) fun _ => .ite (BitVec.toNat_inj.symm) (fun _ => ?_) fun _ =>
    .ite (BitVec.toNat_inj.symm) (fun _ => ?_) fun _ => .fail _
  · exact rel_doIndexN e hp 2#8 8#8 512#64 9 (by decide) rfl (by decide) (by decide)
  · exact rel_doIndexN e hp 4#8 9#8 2048#64 11 (by decide) rfl (by decide) (by decide)
  · exact rel_doIndexN e hp 8#8 8#8 2048#64 11 (by decide) rfl (by decide) (by decide)

theorem rel_doActions (e : Endian) : ∀ (ops : List Nat) {p : DecompW}, p.Inv → DRel p (doActionsW e ops) (doActions e ops)
  | [], _, hp => .pure hp _
  | op :: ops, p, hp => by
    unfold doActionsW doActions
    have hle : op &&& 0x0f ≤ 15 := Nat.and_le_right
    have hn : (BitVec.ofNat 8 (op &&& 0x0f)).toNat = op &&& 0x0f := by
      rw [BitVec.toNat_ofNat]
      omega
    have h1 := rel_doData e hp (BitVec.ofNat 8 (op &&& 0x0f)) (by omega)
    have h2 := rel_doIndex e hp (BitVec.ofNat 8 (op &&& 0x0f))
    rw [hn] at h1 h2
    have k := fun (p' : DecompW) (hp' : p'.Inv) => rel_doActions e ops hp'
    dsimp only
    refine .ite Iff.rfl (fun _ => .bind h1 fun _ p' _ hp' => k p' hp') fun _ => .ite Iff.rfl (fun _ => .bind h2 fun _ p' _ hp' => k p' hp') fun _ =>
      .ite Iff.rfl (fun _ => k p hp) fun _ => .bind (.fail _) fun _ p' _ hp' => k p' hp'

theorem rel_doOp (e : Endian) {p : DecompW} (hp : p.Inv) (o : BitVec 8) : DRel p (doOpW e o) (doOp e o.toNat) := by
  unfold doOpW doOp
  refine .ite (by rw [ge_iff_le, wle]; exact Iff.rfl) (fun _ => .fail _) fun _ => ?_
  exact .bind (.access hp rfl) fun row p' _ hp' => rel_doActions e row hp'

theorem rel_doRepeat : ∀ (k : Nat) {p : DecompW}, p.Inv → DRel p (doRepeatW k) (doRepeat k)
  | 0, _, hp => .pure hp _
  | k + 1, _, hp => .bind (.access hp rfl) fun bs _ _ hp' => .bind (rel_emit hp' bs) fun _ _ _ hp'' => rel_doRepeat k hp''

theorem rel_doShort (e : Endian) : ∀ (k : Nat) {p : DecompW}, p.Inv → DRel p (doShortW e k) (doShort e k)
  | 0, _, hp => .pure hp _
  | k + 1, _, hp => .bind (rel_nextBits e hp 8#8) fun v _ _ hp' => .bind (rel_emit hp' _) fun _ _ _ hp'' => rel_doShort e k hp''

theorem rel_decompOp (e : Endian) {p : DecompW} (hp : p.Inv) (op : BitVec 64) (ho : op.toNat < 32) :
    DRel p (decompOpW e op) (decompOp e op.toNat) := by
  unfold decompOpW decompOp
  refine .ite (BitVec.toNat_inj.symm) (fun _ => ?_) fun _ => .ite (BitVec.toNat_inj.symm) (fun _ => ?_) fun _ =>
    .ite (BitVec.toNat_inj.symm) (fun _ => ?_) fun _ => ?_
  · refine .bind (rel_nextBits e hp 6#8) fun rep p' hr hp' => .get (.ite Iff.rfl (fun _ => .fail _) fun _ => ?_)
    have hl : rep.toNat < 2 ^ 6 := nextBitsW_lt e hp (by decide) hr
    have h1 : (rep + 1#64).toNat = rep.toNat + 1 := by
      rw [BitVec.toNat_add]
      show (rep.toNat + 1) % 2 ^ 64 = _
      omega
    have h8 : ((rep + 1#64) * 8#64).toNat = (rep.toNat + 1) * 8 := by
      rw [BitVec.toNat_mul, h1]
      show (rep.toNat + 1) * 8 % 2 ^ 64 = _
      omega
    rw [h1]
    exact .ite (by rw [gt_iff_lt, wlt, h8]; exact Iff.rfl) (fun _ => .fail _) fun _ => rel_doRepeat _ hp'
  · exact .get (.ite (by rw [gt_iff_lt, wlt]; exact Iff.rfl) (fun _ => .fail _) fun _ => rel_emit hp _)
  · refine .bind (rel_nextBits e hp 3#8) fun bytes p' _ hp' => .ite ?_ (fun _ => .fail _) fun _ => .get ?_
    · rw [gt_iff_lt, wlt, ← BitVec.toNat_inj]; exact Iff.rfl
    · exact .ite (by rw [gt_iff_lt, wlt]; exact Iff.rfl) (fun _ => .fail _) fun _ => rel_doShort e _ hp'
  · have : (op.setWidth 8).toNat = op.toNat := by
      rw [BitVec.toNat_setWidth, Nat.mod_eq_of_lt (by omega)]
    rw [← this]
    exact rel_doOp e hp _

theorem rel_decompLoop (e : Endian) : ∀ (fuel : Nat) {p : DecompW}, p.Inv → DRel p (decompLoopW e fuel) (decompLoop e fuel)
  | 0, _, _ => .timeout
  | fuel + 1, p, hp => by
    unfold decompLoopW decompLoop
    refine .bind (rel_nextBits e hp 5#8) fun op p' ho hp' => .ite (BitVec.toNat_inj.symm) (fun _ => .pure hp' _) fun _ => ?_
    have hl : op.toNat < 2 ^ 5 := nextBitsW_lt e hp (by decide) ho
    exact .bind (rel_decompOp e hp' op hl) fun _ _ _ hp'' => rel_decompLoop e fuel hp''

theorem decompInitW_inv (inp buf : List Byte) (h : inp.length < 2 ^ 63 ∧ buf.length < 2 ^ 63) : (decompInitW inp buf).Inv := by
  refine ⟨by show (0#8).toNat < 8; decide, ?_, ?_, h⟩
  · show 0 + (BitVec.ofNat 64 inp.length).toNat = inp.length
    rw [BitVec.toNat_ofNat]; omega
  · show 0 + (BitVec.ofNat 64 buf.length).toNat = buf.length
    rw [BitVec.toNat_ofNat]; omega

theorem decompInitW_nat (inp buf : List Byte) (h : inp.length < 2 ^ 63 ∧ buf.length < 2 ^ 63) : (decompInitW inp buf).nat = decompInit inp buf := by
  unfold decompInitW DecompW.nat decompInit
  simp only [BitVec.toNat_ofNat, Decomp.mk.injEq, true_and]
  constructor <;> omega

end Lib842
