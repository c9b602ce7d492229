import Verif.Proofs.WordDecomp
/-!
# `optsw842_decompress` with machine arithmetic does what it does with natural numbers
-/

namespace Lib842

/-- The words as natural numbers -/
def ODecompW.nat (p : ODecompW) : ODecomp :=
  { inp := p.inp, word := p.word, ilen := p.ilen.toNat, buf := p.buf, out := p.out, olen := p.olen.toNat, errorcode := p.errorcode,
    bits := p.bits.toNat, buffer := p.buffer }

/-- What the fields of the state have to do with each other -/
structure ODecompW.Inv (p : ODecompW) : Prop where
  bits : p.bits.toNat < 64
  word : 8 * p.word ≤ p.inp.length
  ilen : p.ilen.toNat = p.inp.length
  out : p.out ≤ p.buf.length
  small : p.inp.length < 2 ^ 63 ∧ p.buf.length < 2 ^ 63

abbrev ORel {α : Type} := @RelAt ODecompW ODecomp α ODecompW.nat ODecompW.Inv

theorem ODecompW.setError_nat (er : Errno) (p : ODecompW) : (p.setError er).nat = p.nat.setError er := by
  obtain ⟨a, b, c, d, f, g, er', h, i⟩ := p
  cases er' <;> rfl

theorem ODecompW.setError_inv (er : Errno) {p : ODecompW} (h : p.Inv) : (p.setError er).Inv := by
  unfold ODecompW.setError
  split
  · exact ⟨h.bits, h.word, h.ilen, h.out, h.small⟩
  · exact h

theorem wbind_access {σ α β : Type} {f : σ → Option α} {g : α → M σ β} {p : σ} {a : α} (h : f p = some a) :
    (M.access f >>= g) p = g a p := by
  show M.bind _ _ p = _
  unfold M.bind M.access
  rw [h]

theorem wbind_ok {σ α β : Type} {x : M σ α} {g : α → M σ β} {p p' : σ} {v : β} (h : (x >>= g) p = .ok v p') :
    ∃ a q, x p = .ok a q ∧ g a q = .ok v p' := by
  change M.bind x g p = _ at h
  unfold M.bind at h
  cases hx : x p with
  | ok a q => rw [hx] at h; exact ⟨a, q, rfl, h⟩
  | err _ _ => rw [hx] at h; cases h
  | ub => rw [hx] at h; cases h
  | timeout => rw [hx] at h; cases h

theorem waccess_ok {σ α : Type} {f : σ → Option α} {p p' : σ} {a : α} (h : M.access f p = .ok a p') : f p = some a ∧ p' = p := by
  unfold M.access at h
  cases hf : f p with
  | none => rw [hf] at h; cases h
  | some b => rw [hf] at h; cases h; exact ⟨rfl, rfl⟩

theorem rel_readWord (e : Endian) {p : ODecompW} (hp : p.Inv) : ORel p (readWordW e) (readWord e) := by
  unfold readWordW readWord
  have hw := hp.word
  have hs := hp.small
  have hil := hp.ilen
  have h8 : ((BitVec.ofNat 64 p.word + 1#64) * 8#64).toNat = (p.word + 1) * 8 := by
    rw [BitVec.toNat_mul, BitVec.toNat_add, BitVec.toNat_ofNat]
    show (p.word % 2 ^ 64 + 1) % 2 ^ 64 * 8 % 2 ^ 64 = _
    omega
  have hc : (BitVec.ofNat 64 p.word + 1#64) * 8#64 > p.ilen ↔ (p.word + 1) * 8 > p.ilen.toNat := by
    rw [gt_iff_lt, wlt, h8]
  refine .get (.ite hc (fun _ => ?_) fun hn => ?_)
  · exact .bind (.modify (ODecompW.setError_nat _ _) (ODecompW.setError_inv _ hp)) fun _ _ _ hp' => .pure hp' _
  · rw [hc] at hn
    refine .bind (.access hp rfl) fun w p' hd hp' => ?_
    have hpp : p' = p := by
      unfold M.access at hd
      split at hd
      · cases hd; rfl
      · cases hd
    subst hpp
    refine .bind (.modify rfl ⟨hp.bits, ?_, hp.ilen, hp.out, hp.small⟩) fun _ _ _ hp'' => .pure hp'' _
    show 8 * (p'.word + 1) ≤ p'.inp.length
    omega

theorem readWordW_bits (e : Endian) {p p' : ODecompW} {w : BitVec 64} (h : readWordW e p = .ok w p') :
    p'.bits = p.bits ∧ p'.buffer = p.buffer := by
  unfold readWordW at h
  change (if _ then _ else _ : M ODecompW (BitVec 64)) p = _ at h
  split at h
  · change Outcome.ok 0#64 (p.setError .EINVAL) = _ at h
    cases h
    unfold ODecompW.setError
    split <;> exact ⟨rfl, rfl⟩
  · change M.bind _ _ p = _ at h
    unfold M.bind M.access at h
    split at h
    case h_1 d s heq =>
      split at heq
      · cases heq; cases h; exact ⟨rfl, rfl⟩
      · cases heq
    all_goals cases h

theorem rel_readBits (e : Endian) {p : ODecompW} (hp : p.Inv) (n : BitVec 8) (hn : 1 ≤ n.toNat ∧ n.toNat ≤ 64) :
    ORel p (readBitsW e n) (readBits e n.toNat) := by
  unfold readBitsW readBits
  have hb := hp.bits
  have hv : cshr p.buffer (64 - (n.toNat : Int)) = some (p.buffer >>> (64 - n.toNat)) := by
    unfold cshr
    rw [if_pos (by omega)]
    congr 2
    omega
  refine .get ?_
  have hacc : ∀ (f : BitVec 64 → M ODecompW (BitVec 64)) (y : M ODecomp (BitVec 64)),
      ORel p (f (p.buffer >>> (64 - n.toNat))) y → ORel p (M.access (fun _ => cshr p.buffer (64 - (n.toNat : Int))) >>= f) y := by
    intro f y h
    have : (M.access (fun _ => cshr p.buffer (64 - (n.toNat : Int))) >>= f) p = f (p.buffer >>> (64 - n.toNat)) p := by
      show M.bind _ _ p = _
      unfold M.bind M.access
      rw [hv]
    exact ⟨by rw [this]; exact h.eq, fun a p' he => h.inv a p' (by rw [← this]; exact he)⟩
  refine hacc _ _ (.ite wlt (fun hl => ?_) fun hl => ?_)
  · rw [wlt] at hl
    refine .bind (rel_readWord e hp) fun w p' hw hp' => ?_
    obtain ⟨hbits, hbuf⟩ := readWordW_bits e hw
    have h1 : cshr w (64 - ((n.toNat : Int) - p.bits.toNat)) = some (w >>> (64 - (n.toNat - p.bits.toNat))) := by
      unfold cshr
      rw [if_pos (by omega)]
      congr 2
      omega
    have h2 : cshl w ((n.toNat : Int) - p.bits.toNat - 1) = some (w <<< (n.toNat - p.bits.toNat - 1)) := by
      unfold cshl
      rw [if_pos (by omega)]
      congr 2
      omega
    have hs : (p.bits + (64#8 - n)).toNat = p.bits.toNat + 64 - n.toNat := by
      rw [BitVec.toNat_add, BitVec.toNat_sub]
      show (p.bits.toNat + (2 ^ 8 - n.toNat + 64) % 2 ^ 8) % 2 ^ 8 = _
      omega
    have hpos : p.bits + (64#8 - n) > 0#8 ↔ p.bits.toNat + 64 - n.toNat > 0 := by
      rw [gt_iff_lt, wlt, hs]; exact Iff.rfl
    have hm : winMiss p.nat.buffer p.nat.bits n.toNat w = some (p.buffer >>> (64 - n.toNat) ||| w >>> (64 - (n.toNat - p.bits.toNat)),
        ((w <<< (n.toNat - p.bits.toNat - 1)) <<< 1) * (if p.bits.toNat + 64 - n.toNat > 0 then 1#64 else 0#64), p.bits.toNat + 64 - n.toNat) := by
      unfold winMiss
      have h1' : cshr w (64 - ((n.toNat : Int) - (p.nat.bits : Nat))) = some (w >>> (64 - (n.toNat - p.bits.toNat))) := h1
      have h2' : cshl w ((n.toNat : Int) - (p.nat.bits : Nat) - 1) = some (w <<< (n.toNat - p.bits.toNat - 1)) := h2
      have hv' : cshr p.nat.buffer (64 - (n.toNat : Int)) = some (p.buffer >>> (64 - n.toNat)) := hv
      rw [hv', h1', h2']
      rfl
    have hx : ∀ (x : M ODecompW (BitVec 64)) (y : M ODecomp (BitVec 64)),
        x p' = .ok (p.buffer >>> (64 - n.toNat) ||| w >>> (64 - (n.toNat - p.bits.toNat)))
          { p' with
            buffer := ((w <<< (n.toNat - p.bits.toNat - 1)) <<< 1) * (if p.bits + (64#8 - n) > 0#8 then 1#64 else 0#64)
            bits := p.bits + (64#8 - n) } →
        y p'.nat = .ok (p.buffer >>> (64 - n.toNat) ||| w >>> (64 - (n.toNat - p.bits.toNat)))
          { p'.nat with
            buffer := ((w <<< (n.toNat - p.bits.toNat - 1)) <<< 1) * (if p.bits.toNat + 64 - n.toNat > 0 then 1#64 else 0#64)
            bits := p.bits.toNat + 64 - n.toNat } → ORel p' x y := by
      intro x y hx hy
      constructor
      · rw [hx, hy]
        have hif : (if p.bits + (64#8 - n) > 0#8 then 1#64 else 0#64) = (if p.bits.toNat + 64 - n.toNat > 0 then 1#64 else 0#64) := by
          by_cases h : p.bits.toNat + 64 - n.toNat > 0
          · rw [if_pos h, if_pos (hpos.2 h)]
          · rw [if_neg h, if_neg (fun hc => h (hpos.1 hc))]
        simp only [Outcome.mapS, ODecompW.nat, hif, hs]
      · intro a q he
        rw [hx] at he
        simp only [Outcome.ok.injEq] at he
        rw [← he.2]
        refine ⟨?_, hp'.word, hp'.ilen, hp'.out, hp'.small⟩
        show (p.bits + (64#8 - n)).toNat < 64
        omega
    refine hx _ _ ?_ ?_
    · exact (wbind_access (f := fun _ => cshr w (64 - ((n.toNat : Int) - p.bits.toNat))) (p := p') h1).trans
        ((wbind_access (f := fun _ => cshl w ((n.toNat : Int) - p.bits.toNat - 1)) (p := p') h2).trans rfl)
    · show M.bind _ _ p'.nat = _
      unfold M.bind M.access
      simp only [hm]
      rfl
  · rw [wlt] at hl
    have h2 : cshl p.buffer (n.toNat : Int) = some (p.buffer <<< n.toNat) := by
      unfold cshl
      rw [if_pos (by omega)]
      rfl
    have hs : (p.bits - n).toNat = p.bits.toNat - n.toNat := by
      rw [BitVec.toNat_sub]
      omega
    have hm : winHit p.nat.buffer p.nat.bits n.toNat = some (p.buffer >>> (64 - n.toNat), p.buffer <<< n.toNat, p.bits.toNat - n.toNat) := by
      unfold winHit
      have h2' : cshl p.nat.buffer (n.toNat : Int) = some (p.buffer <<< n.toNat) := h2
      have hv' : cshr p.nat.buffer (64 - (n.toNat : Int)) = some (p.buffer >>> (64 - n.toNat)) := hv
      rw [hv', h2']
      rfl
    have hx : ∀ (x : M ODecompW (BitVec 64)) (y : M ODecomp (BitVec 64)),
        x p = .ok (p.buffer >>> (64 - n.toNat)) { p with bits := p.bits - n, buffer := p.buffer <<< n.toNat } →
        y p.nat = .ok (p.buffer >>> (64 - n.toNat)) { p.nat with buffer := p.buffer <<< n.toNat, bits := p.bits.toNat - n.toNat } →
        ORel p x y := by
      intro x y hx hy
      constructor
      · rw [hx, hy]
        simp only [Outcome.mapS, ODecompW.nat, hs]
      · intro a q he
        rw [hx] at he
        simp only [Outcome.ok.injEq] at he
        rw [← he.2]
        refine ⟨?_, hp.word, hp.ilen, hp.out, hp.small⟩
        show (p.bits - n).toNat < 64
        omega
    refine hx _ _ ?_ ?_
    · show M.bind _ _ p = _
      unfold M.bind M.modify
      simp only
      show M.bind _ _ { p with bits := p.bits - n } = _
      unfold M.bind M.access
      simp only [h2]
      rfl
    · show M.bind _ _ p.nat = _
      unfold M.bind M.access
      simp only [hm]
      rfl

theorem ushr_lt (x : BitVec 64) (n : Nat) (hn : n ≤ 64) : (x >>> (64 - n)).toNat < 2 ^ n := by
  rw [BitVec.toNat_ushiftRight, Nat.shiftRight_eq_div_pow, Nat.div_lt_iff_lt_mul (Nat.two_pow_pos _), ← Nat.pow_add]
  have : n + (64 - n) = 64 := by omega
  rw [this]
  exact x.isLt

/-- `n` bits are below `2 ^ n` -/
theorem readBitsW_lt (e : Endian) {p p' : ODecompW} {n : BitVec 8} {v : BitVec 64} (hn : n.toNat ≤ 64)
    (h : readBitsW e n p = .ok v p') : v.toNat < 2 ^ n.toNat := by
  unfold readBitsW at h
  obtain ⟨q, q', hg, h⟩ := wbind_ok h
  cases hg
  obtain ⟨value, q, hv, h⟩ := wbind_ok h
  obtain ⟨hv, rfl⟩ := waccess_ok hv
  have hval : value.toNat < 2 ^ n.toNat := by
    unfold cshr at hv
    split at hv
    · cases hv
      have hk : (64 - (n.toNat : Int)).toNat = 64 - n.toNat := by omega
      rw [hk]
      exact ushr_lt _ _ hn
    · cases hv
  split at h
  · next hlt =>
    rw [wlt] at hlt
    obtain ⟨w, q1, -, h⟩ := wbind_ok h
    obtain ⟨value', q2, ha, h2⟩ := wbind_ok h
    have hv' := (waccess_ok ha).1
    have hval' : value'.toNat < 2 ^ n.toNat := by
      unfold cshr at hv'
      split at hv'
      · cases hv'
        have hk : (64 - ((n.toNat : Int) - q.bits.toNat)).toNat = 64 - (n.toNat - q.bits.toNat) := by omega
        rw [hk]
        exact Nat.lt_of_lt_of_le (ushr_lt _ _ (by omega)) (Nat.pow_le_pow_right (by decide) (by omega))
      · cases hv'
    obtain ⟨sh, q3, -, h3⟩ := wbind_ok h2
    obtain ⟨_, q4, -, h⟩ := wbind_ok h3
    change Outcome.ok (value ||| value') q4 = _ at h
    simp only [Outcome.ok.injEq] at h
    rw [← h.1, BitVec.toNat_or]
    exact Nat.or_lt_two_pow hval hval'
  · obtain ⟨_, q1, -, h⟩ := wbind_ok h
    obtain ⟨_, q2, -, h⟩ := wbind_ok h
    obtain ⟨_, q3, -, h⟩ := wbind_ok h
    cases h
    exact hval

theorem rel_oemit {p : ODecompW} (hp : p.Inv) (bs : List Byte) : ORel p (oemitW bs) (oemit bs) := by
  unfold oemitW oemit
  have key : ∀ (x : M ODecompW Unit) (y : M ODecomp Unit), x p = (match writeBytes p.buf p.out bs with
      | some b => .ok () { p with buf := b, out := p.out + bs.length }
      | none => .ub) → y p.nat = (match writeBytes p.buf p.out bs with
      | some b => .ok () { p.nat with buf := b, out := p.out + bs.length }
      | none => .ub) → ORel p x y := by
    intro x y hx hy
    have hs := hp.small
    unfold writeBytes at hx hy
    by_cases hc : p.out + bs.length ≤ p.buf.length
    · rw [if_pos hc] at hx hy
      constructor
      · rw [hx, hy]
        simp only [Outcome.mapS, ODecompW.nat]
      · intro a p' he
        rw [hx] at he
        simp only [Outcome.ok.injEq] at he
        rw [← he.2]
        refine ⟨hp.bits, hp.word, hp.ilen, ?_, hs.1, ?_⟩
        · simp only [List.length_append, List.length_take, List.length_drop]
          omega
        · simp only [List.length_append, List.length_take, List.length_drop]
          omega
    · rw [if_neg hc] at hx hy
      constructor
      · rw [hx, hy]; rfl
      · intro a p' he
        rw [hx] at he
        cases he
  apply key
  · show M.bind _ _ p = _
    unfold M.bind M.update
    cases h : writeBytes p.buf p.out bs <;> simp only [h, Option.map] <;> rfl
  · show M.bind _ _ p.nat = _
    unfold M.bind M.update
    have hw : writeBytes p.nat.buf p.nat.out bs = writeBytes p.buf p.out bs := rfl
    cases h : writeBytes p.buf p.out bs <;> rw [h] at hw <;> simp only [hw, Option.map] <;> rfl

theorem rel_odoData (e : Endian) {p : ODecompW} (hp : p.Inv) (n : Nat) (hn : n = 2 ∨ n = 4 ∨ n = 8) (d : BitVec 64) :
    ORel p (odoDataW e n d) (odoData e n d) := by
  unfold odoDataW odoData
  refine .ite Iff.rfl (fun _ => rel_oemit hp _) fun _ => .ite Iff.rfl (fun _ => rel_oemit hp _) fun _ =>
    .ite Iff.rfl (fun _ => rel_oemit hp _) fun _ => ?_
  omega

theorem rel_odoIndex {p : ODecompW} (hp : p.Inv) (size : BitVec 8) (index fsize : BitVec 64) (k : Nat) (hk : 3 ≤ k ∧ k ≤ 11)
    (hf : fsize.toNat = 2 ^ k) (hs : size.toNat ≤ 8) (hi : index.toNat < 2 ^ 9) :
    ORel p (odoIndexW size index fsize) (odoIndex size.toNat index.toNat (2 ^ k)) := by
  unfold odoIndexW odoIndex
  refine .get ?_
  have hout := hp.out
  have hsm := hp.small
  have hsz : (size.setWidth 64).toNat = size.toNat := by
    rw [BitVec.toNat_setWidth, Nat.mod_eq_of_lt (by omega)]
  have ht : (roundDownW (BitVec.ofNat 64 p.out) 8#64).toNat = roundDown p.out 8 := by
    have := roundDownW_toNat (BitVec.ofNat 64 p.out) 3 (by decide) 8#64 rfl
    rw [this, BitVec.toNat_ofNat, Nat.mod_eq_of_lt (by omega)]
  have htl : (roundDownW (BitVec.ofNat 64 p.out) 8#64).toNat < 2 ^ 63 := by
    rw [ht]
    unfold roundDown
    omega
  obtain ⟨ho, hol⟩ := indexOffsetW_toNat index (size.setWidth 64) fsize _ k hk hf hi (by omega) htl
  rw [ht, hsz] at ho
  simp only
  have hadd : (indexOffsetW index (size.setWidth 64) fsize (roundDownW (BitVec.ofNat 64 p.out) 8#64) + size.setWidth 64).toNat =
      indexOffset index.toNat size.toNat (2 ^ k) (roundDown p.out 8) + size.toNat := by
    rw [BitVec.toNat_add, hsz, ← ho]
    omega
  refine .ite (by rw [gt_iff_lt, wlt, hadd, ht]; exact Iff.rfl)
    (fun _ => .modify (ODecompW.setError_nat _ _) (ODecompW.setError_inv _ hp)) fun _ => ?_
  refine .bind (.access hp ?_) fun bs p'' _ hp'' => rel_oemit hp'' bs
  rw [ho]
  rfl

/-- The steps of the `switch`: sizes, widths and FIFO sizes -/
def OptStep.good : OptStep → Prop
  | .data n _ _ => n = 2 ∨ n = 4 ∨ n = 8
  | .index n _ width fsize => n ≤ 8 ∧ width ≤ 9 ∧ (fsize = 2 ^ 9 ∨ fsize = 2 ^ 11)

instance : DecidablePred OptStep.good := fun s => by
  cases s <;> unfold OptStep.good <;> infer_instance

theorem optSwitch_good : ∀ r ∈ optSwitch, 1 ≤ r.1 ∧ r.1 ≤ 64 ∧ ∀ s ∈ r.2, OptStep.good s := by
  decide

theorem field_lt {rep v : BitVec 64} {shift width : Nat} (hw : width ≤ 9) (h : field rep shift width = some v) : v.toNat < 2 ^ 9 := by
  unfold field at h
  cases hc : cshr rep shift with
  | none => rw [hc] at h; cases h
  | some x =>
    rw [hc] at h
    simp only [Option.map, Option.some.injEq] at h
    rw [← h, BitVec.toNat_and, BitVec.toNat_ofNat]
    have h2 : 2 ^ width ≤ 2 ^ 9 := Nat.pow_le_pow_right (by decide) hw
    have : x.toNat &&& (2 ^ width - 1) % 2 ^ 64 ≤ (2 ^ width - 1) % 2 ^ 64 := Nat.and_le_right
    omega

theorem rel_optStep (e : Endian) {p : ODecompW} (hp : p.Inv) (rep : BitVec 64) (s : OptStep) (hs : s.good) :
    ORel p (optStepW e rep s) (optStep e rep s) := by
  cases s with
  | data n shift width => exact .bind (.access hp rfl) fun v p' _ hp' => rel_odoData e hp' n hs v
  | index n shift width fsize =>
    obtain ⟨hn, hw, hf⟩ := hs
    refine .bind (.access hp rfl) fun v p' hv hp' => ?_
    have hl : v.toNat < 2 ^ 9 := by
      unfold M.access at hv
      split at hv
      · next a ha => cases hv; exact field_lt hw ha
      · cases hv
    have hn' : (BitVec.ofNat 8 n).toNat = n := by rw [BitVec.toNat_ofNat]; omega
    rcases hf with hf | hf
    · have := rel_odoIndex hp' (BitVec.ofNat 8 n) v (BitVec.ofNat 64 fsize) 9 (by decide) (by rw [hf]; rfl) (by omega) hl
      rw [hn'] at this
      rw [hf] at this ⊢
      exact this
    · have := rel_odoIndex hp' (BitVec.ofNat 8 n) v (BitVec.ofNat 64 fsize) 11 (by decide) (by rw [hf]; rfl) (by omega) hl
      rw [hn'] at this
      rw [hf] at this ⊢
      exact this

theorem rel_optSteps (e : Endian) (rep : BitVec 64) : ∀ (ss : List OptStep) {p : ODecompW}, p.Inv → (∀ s ∈ ss, OptStep.good s) →
    ORel p (optStepsW e rep ss) (optSteps e rep ss)
  | [], _, hp, _ => .pure hp _
  | s :: ss, _, hp, hg => .bind (rel_optStep e hp rep s (hg s (by simp))) fun _ _ _ hp' =>
      rel_optSteps e rep ss hp' fun s hs => hg s (by simp [hs])

theorem rel_checkError {p : ODecompW} (hp : p.Inv) : ORel p checkErrorW checkError := by
  unfold checkErrorW checkError
  refine .get ?_
  have : p.nat.errorcode = p.errorcode := rfl
  rw [this]
  cases p.errorcode with
  | none => exact .pure hp _
  | some er => exact .fail er

theorem rel_odoRepeat : ∀ (k : Nat) {p : ODecompW}, p.Inv → ORel p (odoRepeatW k) (odoRepeat k)
  | 0, _, hp => .pure hp _
  | k + 1, _, hp => .bind (.access hp rfl) fun bs _ _ hp' => .bind (rel_oemit hp' bs) fun _ _ _ hp'' => rel_odoRepeat k hp''

theorem rel_odoOp (e : Endian) {p : ODecompW} (hp : p.Inv) (op : BitVec 64) : ORel p (odoOpW e op) (odoOp e op.toNat) := by
  unfold odoOpW odoOp
  cases hr : optSwitch[op.toNat]? with
  | some r =>
    obtain ⟨n, steps⟩ := r
    obtain ⟨h1, h2, h3⟩ := optSwitch_good _ (List.mem_of_getElem? hr)
    simp only at h1 h2 h3 ⊢
    have hn : (BitVec.ofNat 8 n).toNat = n := by rw [BitVec.toNat_ofNat]; omega
    have := rel_readBits e hp (BitVec.ofNat 8 n) (by omega)
    rw [hn] at this
    exact .bind this fun rep _ _ hp' => rel_optSteps e rep steps hp' h3
  | none =>
    simp only
    refine .ite (BitVec.toNat_inj.symm) (fun _ => ?_) fun _ => .ite (BitVec.toNat_inj.symm) (fun _ => rel_oemit hp _) fun _ => .fail _
    refine .bind (rel_readBits e hp 6#8 (by decide)) fun rep p1 hr1 hp1 => .bind (rel_checkError hp1) fun _ p2 _ hp2 =>
      .get (.ite Iff.rfl (fun _ => .fail _) fun _ => ?_)
    have hl : rep.toNat < 2 ^ 6 := readBitsW_lt e (by decide) hr1
    have h1 : (rep + 1#64).toNat = rep.toNat + 1 := by
      rw [BitVec.toNat_add]
      show (rep.toNat + 1) % 2 ^ 64 = _
      omega
    have h8 : (BitVec.ofNat 64 p2.out + (rep + 1#64) * 8#64).toNat = p2.out + (rep.toNat + 1) * 8 := by
      rw [BitVec.toNat_add, BitVec.toNat_mul, h1, BitVec.toNat_ofNat]
      have := hp2.out
      have := hp2.small
      show (p2.out % 2 ^ 64 + (rep.toNat + 1) * 8 % 2 ^ 64) % 2 ^ 64 = _
      omega
    rw [h1]
    exact .ite (by rw [gt_iff_lt, wlt, h8]; exact Iff.rfl) (fun _ => .fail _) fun _ => rel_odoRepeat _ hp2

theorem rel_optIter (e : Endian) {p : ODecompW} (hp : p.Inv) : ORel p (optIterW e) (optIter e) := by
  unfold optIterW optIter
  refine .bind (rel_readBits e hp 5#8 (by decide)) fun op p1 _ hp1 => .bind (rel_checkError hp1) fun _ p2 _ hp2 => .get (.ite ?_ (fun _ => .fail _) fun _ => ?_)
  · have h8 : (BitVec.ofNat 64 p2.out + 8#64).toNat = p2.out + 8 := by
      rw [BitVec.toNat_add, BitVec.toNat_ofNat]
      have := hp2.out
      have := hp2.small
      show (p2.out % 2 ^ 64 + 8) % 2 ^ 64 = _
      omega
    rw [gt_iff_lt, wlt, wlt, h8, ← BitVec.toNat_inj]
    exact Iff.rfl
  · exact .ite (BitVec.toNat_inj.symm) (fun _ => .pure hp2 _) fun _ => .bind (rel_odoOp e hp2 op) fun _ _ _ hp3 =>
      .bind (rel_checkError hp3) fun _ _ _ hp4 => .pure hp4 _

theorem rel_doWhile (e : Endian) : ∀ (fuel : Nat) {p : ODecompW}, p.Inv → ORel p (M.doWhile (optIterW e) fuel) (M.doWhile (optIter e) fuel)
  | 0, _, _ => .timeout
  | fuel + 1, _, hp => .bind (rel_optIter e hp) fun _ _ _ hp' => .ite Iff.rfl (fun _ => .pure hp' _) fun _ => rel_doWhile e fuel hp'

theorem optInitW_inv (inp buf : List Byte) (h : inp.length < 2 ^ 63 ∧ buf.length < 2 ^ 63) : (optInitW inp buf).Inv := by
  refine ⟨by show (0#8).toNat < 64; decide, Nat.zero_le _, ?_, Nat.zero_le _, h⟩
  show (BitVec.ofNat 64 inp.length).toNat = inp.length
  rw [BitVec.toNat_ofNat]; omega

theorem optInitW_nat (inp buf : List Byte) (h : inp.length < 2 ^ 63 ∧ buf.length < 2 ^ 63) : (optInitW inp buf).nat = optInit inp buf := by
  unfold optInitW ODecompW.nat optInit
  simp only [BitVec.toNat_ofNat, ODecomp.mk.injEq, true_and]
  exact ⟨by omega, by omega, trivial⟩

end Lib842
