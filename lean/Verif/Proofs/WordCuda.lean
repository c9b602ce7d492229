import Verif.Model.WordCuda
import Verif.Proofs.WordOcl
/-!
# The CUDA decompressor with machine arithmetic does what it does with natural numbers
-/

namespace Lib842

/-- The words as natural numbers -/
def CudaPW.nat (p : CudaPW) : CudaP :=
  { inp := p.inp, word := p.word, buf := p.buf, out := p.out, bits := p.bits.toNat, buffer := p.buffer }

/-- What the fields of the state have to do with each other -/
structure CudaPW.Inv (p : CudaPW) : Prop where
  bits : p.bits.toNat < 64
  out : 8 * p.out ≤ p.buf.length
  small : p.buf.length < 2 ^ 63

abbrev CuRel {α : Type} := @RelAt CudaPW CudaP α CudaPW.nat CudaPW.Inv
abbrev CuRelV {α β : Type} := @RelV CudaPW CudaP α β CudaPW.nat CudaPW.Inv

theorem ptxShr_eq (x : BitVec 64) (k : BitVec 32) : ptxShr x k = x >>> k.toNat := by
  unfold ptxShr
  split
  · next h =>
    rw [gt_iff_lt, wlt] at h
    rw [BitVec.ushiftRight_eq_zero (by exact h)]
  · rfl

theorem ptxShl_eq (x : BitVec 64) (k : BitVec 32) : ptxShl x k = x <<< k.toNat := by
  unfold ptxShl
  split
  · next h =>
    rw [gt_iff_lt, wlt] at h
    rw [BitVec.shiftLeft_eq_zero (by exact h)]
  · rfl

theorem rel_cudaReadBits {p : CudaPW} (hp : p.Inv) (n : BitVec 32) (hn : n.toNat ≤ 64) : CuRel p (cudaReadBitsW n) (cudaReadBits n.toNat) := by
  unfold cudaReadBitsW cudaReadBits
  have hb := hp.bits
  have h64 : (64#32 - n).toNat = 64 - n.toNat := wsub32 (by exact hn)
  refine .get ?_
  have hv : (if n ≤ 0#32 then 0#64 else ptxShr p.buffer (64#32 - n)) = (if n.toNat ≤ 0 then 0#64 else p.nat.buffer >>> (64 - n.toNat)) := by
    rw [ptxShr_eq, h64]
    by_cases h : n.toNat ≤ 0
    · rw [if_pos h, if_pos (by rw [wle]; exact h)]
    · rw [if_neg h, if_neg (by rw [wle]; exact h)]; rfl
  simp only [hv]
  simp only [ptxShr_eq, ptxShl_eq]
  refine .ite wlt (fun hl => ?_) fun hl => ?_
  · rw [wlt] at hl
    have hnb : (n - p.bits).toNat = n.toNat - p.bits.toNat := wsub32 (by omega)
    have hs : (p.bits + (64#32 - n)).toNat = p.bits.toNat + 64 - n.toNat := by
      rw [BitVec.toNat_add, h64]
      omega
    have hw : (64#32 - (n - p.bits)).toNat = 64 - (n.toNat - p.bits.toNat) := by
      rw [wsub32 (by rw [hnb]; show _ ≤ 64; omega), hnb]; rfl
    have hif : (if p.bits + (64#32 - n) > 0#32 then 1#64 else 0#64) = (if p.bits.toNat + 64 - n.toNat > 0 then 1#64 else 0#64) := by
      have hpos : p.bits + (64#32 - n) > 0#32 ↔ p.bits.toNat + 64 - n.toNat > 0 := by
        rw [gt_iff_lt, wlt, hs]; exact Iff.rfl
      by_cases h : p.bits.toNat + 64 - n.toNat > 0
      · rw [if_pos h, if_pos (hpos.2 h)]
      · rw [if_neg h, if_neg (fun hc => h (hpos.1 hc))]
    refine .bind (.access hp rfl) fun w p' hw' hp' => ?_
    rw [hw, hnb, hif]
    refine .bind (.modify ?_ ⟨?_, hp'.out, hp'.small⟩) fun _ p'' _ hp'' => .pure hp'' _
    · simp only [CudaPW.nat, hs]
      congr
    · show (p.bits + (64#32 - n)).toNat < 64
      omega
  · rw [wlt] at hl
    have hs : (p.bits - n).toNat = p.bits.toNat - n.toNat := wsub32 (by omega)
    refine .bind (.modify ?_ ⟨?_, hp.out, hp.small⟩) fun _ p'' _ hp'' => .pure hp'' _
    · simp only [CudaPW.nat, hs]
    · show (p.bits - n).toNat < 64
      omega

/-- `n` bits are below `2 ^ n` -/
theorem cudaReadBitsW_lt {p p' : CudaPW} {n : BitVec 32} {v : BitVec 64} (hn : n.toNat ≤ 64)
    (h : cudaReadBitsW n p = .ok v p') : v.toNat < 2 ^ n.toNat := by
  unfold cudaReadBitsW at h
  obtain ⟨q, q', hg, h1⟩ := wbind_ok h
  cases hg
  have h64 : (64#32 - n).toNat = 64 - n.toNat := wsub32 (by exact hn)
  have hval : (if n ≤ 0#32 then 0#64 else ptxShr p.buffer (64#32 - n)).toNat < 2 ^ n.toNat := by
    split
    · exact Nat.two_pow_pos _
    · rw [ptxShr_eq, h64]
      exact ushr_lt _ _ hn
  dsimp only at h1
  split at h1
  · next hlt =>
    rw [wlt] at hlt
    obtain ⟨w, q1, -, h2⟩ := wbind_ok h1
    obtain ⟨_, q2, -, h3⟩ := wbind_ok h2
    change Outcome.ok _ q2 = _ at h3
    simp only [Outcome.ok.injEq] at h3
    rw [← h3.1, BitVec.toNat_or]
    have hnb : (n - p.bits).toNat = n.toNat - p.bits.toNat := wsub32 (by omega)
    refine Nat.or_lt_two_pow hval ?_
    rw [ptxShr_eq, wsub32 (by rw [hnb]; show _ ≤ 64; omega), hnb]
    exact Nat.lt_of_lt_of_le (ushr_lt _ _ (by omega)) (Nat.pow_le_pow_right (by decide) (by omega))
  · obtain ⟨_, q1, -, h2⟩ := wbind_ok h1
    cases h2
    exact hval

theorem cudaGetIndexW_toNat {p : CudaPW} (hp : p.Inv) (size : BitVec 8) (index fsize : BitVec 64) (k : Nat) (hk : 3 ≤ k ∧ k ≤ 11)
    (hf : fsize.toNat = 2 ^ k) (hs : size.toNat ≤ 8) (hi : index.toNat < 2 ^ 9) :
    (cudaGetIndexW p size index fsize).toNat = cudaGetIndex p.nat size.toNat index.toNat (2 ^ k) ∧
    (cudaGetIndexW p size index fsize).toNat < 2 ^ 63 + 2 ^ 13 := by
  unfold cudaGetIndexW cudaGetIndex
  have hout := hp.out
  have hsm := hp.small
  have hsz : (size.setWidth 64).toNat = size.toNat := by
    rw [BitVec.toNat_setWidth, Nat.mod_eq_of_lt (by omega)]
  have ht : (roundDownW (BitVec.ofNat 64 (8 * p.out)) 8#64).toNat = 8 * p.out := by
    have := roundDownW_toNat (BitVec.ofNat 64 (8 * p.out)) 3 (by decide) 8#64 rfl
    rw [this, BitVec.toNat_ofNat, Nat.mod_eq_of_lt (by omega)]
    unfold roundDown
    omega
  obtain ⟨ho, hol⟩ := indexOffsetW_toNat index (size.setWidth 64) fsize _ k hk hf hi (by omega) (by rw [ht]; omega)
  rw [ht, hsz] at ho
  exact ⟨ho, hol⟩

theorem rel_cudaLoad {p : CudaPW} (hp : p.Inv) (dst : BitVec 32) (offset : BitVec 64) (hd : dst.toNat ≤ 8) (ho : offset.toNat < 2 ^ 63 + 2 ^ 13) :
    CuRel p (cudaLoadW dst offset) (cudaLoad dst.toNat offset.toNat) := by
  unfold cudaLoadW cudaLoad
  have ha : ∀ k : Nat, k ≤ 6 → (offset + BitVec.ofNat 64 k).toNat = offset.toNat + k := by
    intro k hk
    rw [BitVec.toNat_add, BitVec.toNat_ofNat]
    omega
  have h2 := ha 2 (by omega)
  have h4 := ha 4 (by omega)
  have h6 := ha 6 (by omega)
  have hsh : (dst <<< 3).toNat = dst.toNat <<< 3 := by
    rw [BitVec.toNat_shiftLeft, Nat.shiftLeft_eq]
    omega
  have hsub : (64#32 - dst <<< 3).toNat = 64 - dst.toNat <<< 3 := by
    rw [wsub32 (by rw [hsh, Nat.shiftLeft_eq]; show _ ≤ 64; omega), hsh]; rfl
  have hfin : ∀ (r : BitVec 64) (p' : CudaPW), p'.Inv → CuRel p' (pure (swap64 (ptxShl r (64#32 - dst <<< 3)))) (pure (swap64 (r <<< (64 - dst.toNat <<< 3)))) := by
    intro r p' hp'
    rw [ptxShl_eq, hsub]
    exact .pure hp' _
  dsimp only
  refine .bind (.access hp rfl) fun v0 p0 _ hp0 => ?_
  refine .ite (by rw [gt_iff_lt, wlt]; exact Iff.rfl) (fun _ => ?_) fun _ => hfin _ _ hp0
  rw [h2]
  refine .bind (.access hp0 rfl) fun v1 p1 _ hp1 => ?_
  refine .ite (BitVec.toNat_inj.symm) (fun _ => ?_) fun _ => hfin _ _ hp1
  rw [h4, h6]
  exact .bind (.access hp1 rfl) fun v2 p2 _ hp2 => .bind (.access hp2 rfl) fun v3 p3 _ hp3 => hfin _ _ hp3

/-- What the rows of the table look like -/
def cudaGood (f : Nat × Nat) : Prop :=
  f.1 < 256 ∧ f.1 &&& 0x7f ≤ 64 ∧ f.2 ≤ 8 ∧ (f.1 >>> 7 ≠ 0 → f.1 &&& 0x7f ≤ 9 ∧ (f.2 = 2 ∨ f.2 = 4 ∨ f.2 = 8))

instance : DecidablePred cudaGood := fun f => by unfold cudaGood; infer_instance

theorem cudaTemplates_good : ∀ row ∈ cudaTemplates, row.length ≤ 4 ∧ ∀ f ∈ row, cudaGood f := by
  decide

theorem rel_cudaField {p : CudaPW} (hp : p.Inv) (f : Nat × Nat) (hf : cudaGood f) (l : BitVec 64 × BitVec 32) (hl : l.2.toNat < 2 ^ 16) :
    CuRelV (fun l => (l.1, l.2.toNat)) p (cudaFieldW ((BitVec.ofNat 8 f.1).setWidth 32) ((BitVec.ofNat 8 f.2).setWidth 32) l)
      (cudaField f.1 f.2 (l.1, l.2.toNat)) := by
  obtain ⟨t, dst⟩ := f
  obtain ⟨word, bits⟩ := l
  obtain ⟨g1, g2, g3, g4⟩ := hf
  simp only at g1 g2 g3 g4 hl ⊢
  have ht : ((BitVec.ofNat 8 t).setWidth 32).toNat = t := by
    rw [BitVec.toNat_setWidth, BitVec.toNat_ofNat]
    omega
  have hd : ((BitVec.ofNat 8 dst).setWidth 32).toNat = dst := by
    rw [BitVec.toNat_setWidth, BitVec.toNat_ofNat]
    omega
  generalize (BitVec.ofNat 8 t).setWidth 32 = tw at ht
  generalize (BitVec.ofNat 8 dst).setWidth 32 = dw at hd
  subst ht hd
  have hn : (tw &&& 0x7F#32).toNat = tw.toNat &&& 0x7F := BitVec.toNat_and _ _
  have hsh : (dw <<< 3).toNat = dw.toNat <<< 3 := by
    rw [BitVec.toNat_shiftLeft, Nat.shiftLeft_eq]
    omega
  unfold cudaFieldW cudaField
  have hfin : ∀ (v : BitVec 64) (p' : CudaPW), p'.Inv → CuRelV (fun l : BitVec 64 × BitVec 32 => (l.1, l.2.toNat)) p'
      (pure (word ||| ptxShl v (64#32 - dw <<< 3 - bits), bits + dw <<< 3))
      (pure (word ||| (if dw.toNat <<< 3 + bits.toNat ≤ 64 then v <<< (64 - dw.toNat <<< 3 - bits.toNat) else 0#64), bits.toNat + dw.toNat <<< 3)) := by
    intro v p' hp'
    refine .pure hp' ?_
    have e3 : (bits + dw <<< 3).toNat = bits.toNat + dw.toNat <<< 3 := by
      rw [BitVec.toNat_add, hsh, Nat.shiftLeft_eq]
      omega
    have e2 : ptxShl v (64#32 - dw <<< 3 - bits) = (if dw.toNat <<< 3 + bits.toNat ≤ 64 then v <<< (64 - dw.toNat <<< 3 - bits.toNat) else 0#64) := by
      have hk : (64#32 - dw <<< 3 - bits).toNat = (2 ^ 32 - bits.toNat + (2 ^ 32 - dw.toNat * 8 + 64) % 2 ^ 32) % 2 ^ 32 := by
        rw [BitVec.toNat_sub, BitVec.toNat_sub, hsh, Nat.shiftLeft_eq]
        rfl
      rw [Nat.shiftLeft_eq]
      split
      · rw [ptxShl_eq, hk]
        congr 1
        omega
      · unfold ptxShl
        rw [if_pos]
        rw [gt_iff_lt, wlt, hk]
        show 63 < _
        omega
    simp only [e2, e3]
  have hr := rel_cudaReadBits hp (tw &&& 0x7F#32) (by rw [hn]; exact g2)
  rw [hn] at hr
  refine .bind hr fun v p1 hv hp1 => ?_
  have hvl : v.toNat < 2 ^ (tw.toNat &&& 0x7F) := by
    have := cudaReadBitsW_lt (by rw [hn]; exact g2) hv
    rwa [hn] at this
  have hsr : (tw >>> 7).toNat = tw.toNat >>> 7 := BitVec.toNat_ushiftRight _ _
  have hne : tw >>> 7 ≠ 0#32 ↔ tw.toNat >>> 7 ≠ 0 := by
    exact not_congr ⟨fun h => by rw [← hsr, h]; rfl, fun h => BitVec.eq_of_toNat_eq (by rw [hsr, h]; rfl)⟩
  dsimp only
  refine .ite hne (fun hi => ?_) fun _ => hfin _ _ hp1
  rw [hne] at hi
  obtain ⟨h9, hdst⟩ := g4 hi
  refine .get (.bind (.access hp1 rfl) fun fsize p2 hfs hp2 => ?_)
  obtain ⟨hfs, rfl⟩ := waccess_ok hfs
  have hkk : ∃ k, 3 ≤ k ∧ k ≤ 11 ∧ fsize = 2 ^ k := by
    rcases hdst with h | h | h <;> rw [h] at hfs <;> cases hfs
    · exact ⟨9, by decide⟩
    · exact ⟨11, by decide⟩
    · exact ⟨11, by decide⟩
  obtain ⟨k, hk1, hk2, rfl⟩ := hkk
  have hk0 : 0 < 2 ^ k := Nat.two_pow_pos k
  have hkp : 2 ^ k ≤ 2 ^ 11 := Nat.pow_le_pow_right (by decide) hk2
  have hfz : ((BitVec.ofNat 16 (2 ^ k)).setWidth 64).toNat = 2 ^ k := by
    rw [BitVec.toNat_setWidth, BitVec.toNat_ofNat]
    omega
  have hd8 : (dw.setWidth 8).toNat = dw.toNat := by
    rw [BitVec.toNat_setWidth, Nat.mod_eq_of_lt (by omega)]
  have hvl9 : v.toNat < 2 ^ 9 := Nat.lt_of_lt_of_le hvl (Nat.pow_le_pow_right (by decide) h9)
  obtain ⟨ho1, ho2⟩ := cudaGetIndexW_toNat hp2 (dw.setWidth 8) v _ k ⟨hk1, hk2⟩ hfz (by omega) hvl9
  rw [hd8] at ho1
  have hload := rel_cudaLoad hp2 dw _ g3 ho2
  rw [ho1] at hload
  exact .bind hload fun r p3 _ hp3 => hfin r p3 hp3

theorem cudaFieldW_bits {p p' : CudaPW} {t dst : BitVec 32} {l l' : BitVec 64 × BitVec 32} (h : cudaFieldW t dst l p = .ok l' p') :
    l'.2 = l.2 + dst <<< 3 := by
  unfold cudaFieldW at h
  obtain ⟨v, q, -, h1⟩ := wbind_ok h
  dsimp only at h1
  split at h1
  · obtain ⟨q1, q2, -, h2⟩ := wbind_ok h1
    obtain ⟨fs, q3, -, h3⟩ := wbind_ok h2
    obtain ⟨r, q4, -, h4⟩ := wbind_ok h3
    cases h4
    rfl
  · cases h1
    rfl

theorem rel_cudaFields (fs : List (Nat × Nat)) : ∀ {p : CudaPW}, p.Inv → (∀ f ∈ fs, cudaGood f) → ∀ l : BitVec 64 × BitVec 32,
    l.2.toNat + 64 * fs.length < 2 ^ 16 → CuRelV (fun l => (l.1, l.2.toNat)) p (cudaFieldsW fs l) (cudaFields fs (l.1, l.2.toNat)) := by
  induction fs with
  | nil => intro p hp _ l _; exact .pure hp rfl
  | cons f fs ih =>
    intro p hp hg l hl
    have hgf := hg f List.mem_cons_self
    rw [List.length_cons] at hl
    unfold cudaFieldsW cudaFields
    refine .bindV (rel_cudaField hp f hgf l (by omega)) fun l' p' hl' hp' => ?_
    refine ih hp' (fun g hgm => hg g (List.mem_cons_of_mem _ hgm)) l' ?_
    have hd : ((BitVec.ofNat 8 f.2).setWidth 32).toNat ≤ 8 := by
      rw [BitVec.toNat_setWidth, BitVec.toNat_ofNat]
      have := hgf.2.2.1
      omega
    rw [cudaFieldW_bits hl', BitVec.toNat_add, BitVec.toNat_shiftLeft, Nat.shiftLeft_eq]
    omega

theorem rel_cudaPut {p : CudaPW} (hp : p.Inv) (bs : List Byte) (h8 : bs.length = 8) : CuRel p (cudaPutW bs) (cudaPut bs) := by
  unfold cudaPutW cudaPut
  have hsm := hp.small
  have key : ∀ (x : M CudaPW Unit) (y : M CudaP Unit), x p = (match writeBytes p.buf (8 * p.out) bs with
      | some b => .ok () { p with buf := b, out := p.out + 1 }
      | none => .ub) → y p.nat = (match writeBytes p.buf (8 * p.out) bs with
      | some b => .ok () { p.nat with buf := b, out := p.out + 1 }
      | none => .ub) → CuRel p x y := by
    intro x y hx hy
    unfold writeBytes at hx hy
    by_cases hc : 8 * p.out + bs.length ≤ p.buf.length
    · rw [if_pos hc] at hx hy
      constructor
      · rw [hx, hy]
        simp only [Outcome.mapS, CudaPW.nat]
      · intro a p' he
        rw [hx] at he
        simp only [Outcome.ok.injEq] at he
        rw [← he.2]
        have hlen : (p.buf.take (8 * p.out) ++ bs ++ p.buf.drop (8 * p.out + bs.length)).length = p.buf.length := by
          simp only [List.length_append, List.length_take, List.length_drop]
          omega
        refine ⟨hp.bits, ?_, ?_⟩
        · show 8 * (p.out + 1) ≤ (p.buf.take (8 * p.out) ++ bs ++ p.buf.drop (8 * p.out + bs.length)).length
          omega
        · show (p.buf.take (8 * p.out) ++ bs ++ p.buf.drop (8 * p.out + bs.length)).length < _
          omega
    · rw [if_neg hc] at hx hy
      constructor
      · rw [hx, hy]; rfl
      · intro a p' he
        rw [hx] at he
        cases he
  apply key
  · show M.bind _ _ p = _
    unfold M.bind M.update
    cases h : writeBytes p.buf (8 * p.out) bs <;> simp only [h, Option.map] <;> rfl
  · show M.bind _ _ p.nat = _
    unfold M.bind M.update
    have hw : writeBytes p.nat.buf (8 * p.nat.out) bs = writeBytes p.buf (8 * p.out) bs := rfl
    cases h : writeBytes p.buf (8 * p.out) bs <;> rw [h] at hw <;> simp only [hw, Option.map] <;> rfl

theorem rel_cudaRepeat : ∀ (k : Nat) {p : CudaPW}, p.Inv → CuRel p (cudaRepeatW k) (cudaRepeat k)
  | 0, _, hp => .pure hp _
  | k + 1, _, hp => .bind (.access hp rfl) fun bs p' hb hp' => .bind (rel_cudaPut hp' bs (by
      have := (waccess_ok hb).1
      split at this
      · cases this
      · exact readBytes_len_w this)) fun _ _ _ hp'' => rel_cudaRepeat k hp''

theorem rel_cudaIter {p : CudaPW} (hp : p.Inv) : CuRel p cudaIterW cudaIter := by
  unfold cudaIterW cudaIter
  refine .bind (rel_cudaReadBits hp 5#32 (by decide)) fun op p1 hop hp1 => ?_
  refine .ite (BitVec.toNat_inj.symm) (fun _ => ?_) fun _ => .ite (BitVec.toNat_inj.symm) (fun _ => ?_) fun _ =>
    .ite (BitVec.toNat_inj.symm) (fun _ => .pure hp1 _) fun _ => ?_
  · refine .bind (rel_cudaReadBits hp1 6#32 (by decide)) fun rep p2 hrep hp2 => ?_
    have hl : rep.toNat < 2 ^ 6 := cudaReadBitsW_lt (by decide) hrep
    have h1 : (rep + 1#64).toNat = rep.toNat + 1 := by
      rw [BitVec.toNat_add]
      show (rep.toNat + 1) % 2 ^ 64 = _
      omega
    rw [h1]
    exact .bind (rel_cudaRepeat _ hp2) fun _ _ _ hp3 => .pure hp3 _
  · exact .bind (rel_cudaPut hp1 _ rfl) fun _ _ _ hp2 => .pure hp2 _
  · refine .bind (.access hp1 rfl) fun row p2 hrow hp2 => ?_
    have hmem : row ∈ cudaTemplates := List.mem_of_getElem? (waccess_ok hrow).1
    obtain ⟨h4, hg⟩ := cudaTemplates_good row hmem
    refine RelV.toRelAt (.bindV (rel_cudaFields row hp2 hg (0#64, 0#32) (by show 0 + 64 * row.length < 2 ^ 16; omega)) fun l p3 _ hp3 => ?_)
    exact .bind (rel_cudaPut hp3 _ (by cases l; rfl)) fun _ _ _ hp4 => .pure hp4 rfl

theorem rel_cudaWhile : ∀ (fuel : Nat) {p : CudaPW}, p.Inv → CuRel p (M.doWhile cudaIterW fuel) (M.doWhile cudaIter fuel)
  | 0, _, _ => .timeout
  | fuel + 1, _, hp => .bind (rel_cudaIter hp) fun _ _ _ hp' => .ite Iff.rfl (fun _ => .pure hp' _) fun _ => rel_cudaWhile fuel hp'

theorem cudaThreadW_eq (inp buf : List Byte) (hb : buf.length < 2 ^ 63) : cudaThreadW inp buf = cudaThread inp buf := by
  have hp : CudaPW.Inv { inp := inp, word := 0, buf := buf, out := 0, bits := 0#32, buffer := 0#64 } :=
    ⟨by show (0#32).toNat < 64; decide, Nat.zero_le _, hb⟩
  have hr := (rel_cudaWhile (8 * inp.length + 1) hp).eq
  unfold cudaThreadW cudaThread
  have hr' : M.doWhile cudaIter (8 * inp.length + 1) { inp := inp, word := 0, buf := buf, out := 0, bits := 0, buffer := 0#64 } = _ := hr.symm
  rw [hr']
  cases M.doWhile cudaIterW (8 * inp.length + 1) { inp := inp, word := 0, buf := buf, out := 0, bits := 0#32, buffer := 0#64 } <;> rfl

theorem cudaChunkW_eq (inp buf : List Byte) (block blockDim thread : BitVec 32) (hb : buf.length < 2 ^ 63) :
    cudaChunkW inp buf block blockDim thread = cudaChunk inp buf (block.toNat * blockDim.toNat + thread.toNat) := by
  unfold cudaChunkW cudaChunk
  have h1 : (256#32 * (block * blockDim + thread)).toNat = cudaChunkSize / 8 * 2 * (block.toNat * blockDim.toNat + thread.toNat) % 2 ^ 32 := by
    rw [BitVec.toNat_mul, BitVec.toNat_add, BitVec.toNat_mul]
    show 256 * _ % 2 ^ 32 = 256 * _ % 2 ^ 32
    rw [Nat.mod_add_mod, Nat.mul_mod_mod]
  have h2 : (128#32 * (block * blockDim + thread)).toNat = cudaChunkSize / 8 * (block.toNat * blockDim.toNat + thread.toNat) % 2 ^ 32 := by
    rw [BitVec.toNat_mul, BitVec.toNat_add, BitVec.toNat_mul]
    show 128 * _ % 2 ^ 32 = 128 * _ % 2 ^ 32
    rw [Nat.mod_add_mod, Nat.mul_mod_mod]
  dsimp only
  rw [h1, h2]
  split
  · rfl
  · rw [cudaThreadW_eq _ _ (by rw [List.length_drop]; omega)]

end Lib842
