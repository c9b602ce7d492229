import Verif.Model.WordOcl
import Verif.Proofs.WordOpt
/-!
# The OpenCL decompressor with machine arithmetic does what it does with natural numbers
-/

namespace Lib842

/-- The words as natural numbers -/
def OclPW.nat (p : OclPW) : OclP :=
  { src := p.src, ioff := p.ioff, word := p.word, ilen := p.ilen.toNat, buf := p.buf, out := p.out, olen := p.olen.toNat,
    bits := p.bits.toNat, buffer := p.buffer, la := p.la }

/-- What the fields of the state have to do with each other.  If `ilen` is huge (`(size_t)-1` when the lengths are not given) the loads keep the
read position within the object. -/
structure OclPW.Inv (p : OclPW) : Prop where
  bits : p.bits.toNat < 64
  word : 8 * p.word ≤ 2 ^ 63 + 100
  word' : 2 ^ 63 + 100 ≤ p.ilen.toNat → 8 * p.word ≤ 2 ^ 63
  out : 8 * p.out ≤ p.buf.length
  ilen : p.input.length < 2 ^ 63
  olen : p.buf.length < 2 ^ 63

abbrev ClRel {α : Type} := @RelAt OclPW OclP α OclPW.nat OclPW.Inv
abbrev ClRelV {α β : Type} := @RelV OclPW OclP α β OclPW.nat OclPW.Inv

theorem oclFetchW_eq (e : Endian) {p : OclPW} (hp : p.Inv) (k : Nat) (hk : k ≤ 6) : oclFetchW e k p = oclFetch e k p.nat := by
  unfold oclFetchW oclFetch
  have h8 : ((BitVec.ofNat 64 p.word + BitVec.ofNat 64 k) * 8#64).toNat = (p.word + k) * 8 := by
    rw [BitVec.toNat_mul, BitVec.toNat_add, BitVec.toNat_ofNat, BitVec.toNat_ofNat]
    have := hp.word
    show (p.word % 2 ^ 64 + k % 2 ^ 64) % 2 ^ 64 * 8 % 2 ^ 64 = _
    omega
  have hc : (BitVec.ofNat 64 p.word + BitVec.ofNat 64 k) * 8#64 < p.ilen ↔ (p.nat.word + k) * 8 < p.nat.ilen := by
    rw [wlt, h8]; exact Iff.rfl
  by_cases h : (p.nat.word + k) * 8 < p.nat.ilen
  · rw [if_pos h, if_pos (hc.2 h)]; rfl
  · rw [if_neg h, if_neg fun hh => h (hc.1 hh)]

theorem load64_len {e : Endian} {m : List Byte} {i : Nat} {v : BitVec 64} (h : load64 e m i = some v) : i + 8 ≤ m.length := by
  by_cases hc : i + 8 ≤ m.length
  · exact hc
  · unfold load64 readBytes at h
    rw [if_neg hc] at h
    cases h

/-- The word after the next `k` can be fetched, so the position may advance -/
theorem oclFetchW_word (e : Endian) {p : OclPW} (hp : p.Inv) {w : BitVec 64} (h : oclFetchW e 6 p = some w)
    (hc : (p.word + 1) * 8 ≤ p.ilen.toNat) : 8 * (p.word + 1) ≤ 2 ^ 63 + 100 ∧ (2 ^ 63 + 100 ≤ p.ilen.toNat → 8 * (p.word + 1) ≤ 2 ^ 63) := by
  rw [oclFetchW_eq e hp 6 (by omega)] at h
  unfold oclFetch at h
  have h1 := hp.word
  have h2 := hp.word'
  have h3 := hp.ilen
  split at h
  · next hl =>
    cases hv : load64 e p.nat.input (8 * (p.nat.ioff + p.nat.word + 6)) with
    | none => rw [hv] at h; cases h
    | some v =>
      have := load64_len hv
      have hi : p.nat.input.length = p.input.length := rfl
      have hw : p.nat.word = p.word := rfl
      omega
  · next hl =>
    have hl : ¬ (p.word + 6) * 8 < p.ilen.toNat := hl
    omega

theorem rel_oclShift (e : Endian) {p : OclPW} (hp : p.Inv) : ClRel p (oclShiftW e) (oclShift e) := by
  unfold oclShiftW oclShift
  refine .bind (.access hp (oclFetchW_eq e hp 6 (by omega))) fun w p' hw hp' => .get ?_
  have : p'.nat.la = p'.la := rfl
  rw [this]
  generalize p'.la = l
  have hub : ClRel (α := BitVec 64) p' M.ub M.ub := ⟨rfl, fun _ _ he => by cases he⟩
  rcases l with _ | ⟨_, _ | ⟨_, _ | ⟨_, _ | ⟨_, _ | ⟨_, _ | ⟨_, _ | ⟨_, l⟩⟩⟩⟩⟩⟩⟩ <;> try exact hub
  have hi : ∀ l, OclPW.Inv { p' with la := l } := fun l => ⟨hp'.bits, hp'.word, hp'.word', hp'.out, hp'.ilen, hp'.olen⟩
  exact .bind (.modify rfl (hi _)) fun _ _ _ hp'' => .pure hp'' _

theorem oclShiftW_ok (e : Endian) {p p' : OclPW} {w : BitVec 64} (h : oclShiftW e p = .ok w p') :
    (∃ v, oclFetchW e 6 p = some v) ∧ ∃ l, p' = { p with la := l } := by
  unfold oclShiftW at h
  obtain ⟨v, q, hv, h1⟩ := wbind_ok h
  obtain ⟨hv, rfl⟩ := waccess_ok hv
  obtain ⟨q1, q2, hg, h2⟩ := wbind_ok h1
  cases hg
  refine ⟨⟨v, hv⟩, ?_⟩
  generalize hla : OclPW.la _ = l at h2
  rcases l with _ | ⟨_, _ | ⟨_, _ | ⟨_, _ | ⟨_, _ | ⟨_, _ | ⟨_, _ | ⟨_, l⟩⟩⟩⟩⟩⟩⟩ <;> try (cases h2; done)
  obtain ⟨_, q3, hm, h3⟩ := wbind_ok h2
  cases hm
  cases h3
  exact ⟨_, rfl⟩

theorem clShr_eq (x : BitVec 64) {k : BitVec 32} {m : Nat} (h : k.toNat = m) (hm : m < 64) : clShr x k = x >>> m := by
  unfold clShr
  rw [h, Nat.mod_eq_of_lt hm]

theorem clShl_eq (x : BitVec 64) {k : BitVec 32} {m : Nat} (h : k.toNat = m) (hm : m < 64) : clShl x k = x <<< m := by
  unfold clShl
  rw [h, Nat.mod_eq_of_lt hm]

theorem wsub32 {a b : BitVec 32} (h : b.toNat ≤ a.toNat) : (a - b).toNat = a.toNat - b.toNat := by
  rw [BitVec.toNat_sub]
  have := a.isLt
  omega

theorem rel_oclReadBits (e : Endian) {p : OclPW} (hp : p.Inv) (n : BitVec 32) (hn : 1 ≤ n.toNat ∧ n.toNat ≤ 64) :
    ClRel p (oclReadBitsW e n) (oclReadBits e n.toNat) := by
  unfold oclReadBitsW oclReadBits
  have hb := hp.bits
  have h64 : (64#32 - n).toNat = 64 - n.toNat := wsub32 (by exact hn.2)
  have hv : cshr p.buffer (64 - (n.toNat : Int)) = some (p.buffer >>> (64 - n.toNat)) := by
    unfold cshr
    rw [if_pos (by omega)]
    congr 2
    omega
  have hval : clShr p.buffer (64#32 - n) = p.buffer >>> (64 - n.toNat) := clShr_eq _ h64 (by omega)
  refine .get ?_
  simp only
  rw [hval]
  refine .ite wlt (fun hl => ?_) fun hl => ?_
  · rw [wlt] at hl
    have h8 : ((BitVec.ofNat 64 p.word + 1#64) * 8#64).toNat = (p.word + 1) * 8 := by
      rw [BitVec.toNat_mul, BitVec.toNat_add, BitVec.toNat_ofNat]
      have := hp.word
      show (p.word % 2 ^ 64 + 1) % 2 ^ 64 * 8 % 2 ^ 64 = _
      omega
    have hc : (BitVec.ofNat 64 p.word + 1#64) * 8#64 > p.ilen ↔ (p.word + 1) * 8 > p.ilen.toNat := by
      rw [gt_iff_lt, wlt, h8]
    refine .ite hc (fun _ => .fail _) fun hnc => ?_
    rw [hc] at hnc
    refine .bind (rel_oclShift e hp) fun w p' hw hp' => ?_
    obtain ⟨⟨v, hf⟩, l, hl'⟩ := oclShiftW_ok e hw
    have hwd := oclFetchW_word e hp hf (by omega)
    have hnb : (n - p.bits).toNat = n.toNat - p.bits.toNat := wsub32 (by omega)
    have hs : (p.bits + (64#32 - n)).toNat = p.bits.toNat + 64 - n.toNat := by
      rw [BitVec.toNat_add, h64]
      omega
    have e1 : clShr w (64#32 - (n - p.bits)) = w >>> (64 - (n.toNat - p.bits.toNat)) :=
      clShr_eq _ (by rw [wsub32 (by rw [hnb]; show _ ≤ 64; omega), hnb]; rfl) (by omega)
    have e2 : clShl w (n - p.bits - 1#32) = w <<< (n.toNat - p.bits.toNat - 1) :=
      clShl_eq _ (by rw [wsub32 (by rw [hnb]; show 1 ≤ _; omega), hnb]; rfl) (by omega)
    have hpos : p.bits + (64#32 - n) > 0#32 ↔ p.bits.toNat + 64 - n.toNat > 0 := by
      rw [gt_iff_lt, wlt, hs]; exact Iff.rfl
    have hif : (if p.bits + (64#32 - n) > 0#32 then 1#64 else 0#64) = (if p.bits.toNat + 64 - n.toNat > 0 then 1#64 else 0#64) := by
      by_cases h : p.bits.toNat + 64 - n.toNat > 0
      · rw [if_pos h, if_pos (hpos.2 h)]
      · rw [if_neg h, if_neg (fun hc => h (hpos.1 hc))]
    have h1 : cshr w (64 - ((n.toNat : Int) - p.bits.toNat)) = some (w >>> (64 - (n.toNat - p.bits.toNat))) := by
      unfold cshr
      rw [if_pos (by omega)]
      congr 2
      omega
    have h2 : cshl w ((n.toNat : Int) - p.bits.toNat - 1) = some (w <<< (n.toNat - p.bits.toNat - 1)) := by
      unfold cshl
      rw [if_pos (by omega)]
      congr 2
      omega
    have hm : winMiss p.nat.buffer p.nat.bits n.toNat w = some (p.buffer >>> (64 - n.toNat) ||| w >>> (64 - (n.toNat - p.bits.toNat)),
        ((w <<< (n.toNat - p.bits.toNat - 1)) <<< 1) * (if p.bits.toNat + 64 - n.toNat > 0 then 1#64 else 0#64), p.bits.toNat + 64 - n.toNat) := by
      unfold winMiss
      have h1' : cshr w (64 - ((n.toNat : Int) - (p.nat.bits : Nat))) = some (w >>> (64 - (n.toNat - p.bits.toNat))) := h1
      have h2' : cshl w ((n.toNat : Int) - (p.nat.bits : Nat) - 1) = some (w <<< (n.toNat - p.bits.toNat - 1)) := h2
      have hv' : cshr p.nat.buffer (64 - (n.toNat : Int)) = some (p.buffer >>> (64 - n.toNat)) := hv
      rw [hv', h1', h2']
      rfl
    rw [e1]
    have hx : ∀ (x : M OclPW (BitVec 64)) (y : M OclP (BitVec 64)),
        x p' = .ok (p.buffer >>> (64 - n.toNat) ||| w >>> (64 - (n.toNat - p.bits.toNat)))
          { p' with
            word := p'.word + 1
            buffer := ((clShl w (n - p.bits - 1#32)) <<< 1) * (if p.bits + (64#32 - n) > 0#32 then 1#64 else 0#64)
            bits := p.bits + (64#32 - n) } →
        y p'.nat = .ok (p.buffer >>> (64 - n.toNat) ||| w >>> (64 - (n.toNat - p.bits.toNat)))
          { p'.nat with
            word := p'.word + 1
            buffer := ((w <<< (n.toNat - p.bits.toNat - 1)) <<< 1) * (if p.bits.toNat + 64 - n.toNat > 0 then 1#64 else 0#64)
            bits := p.bits.toNat + 64 - n.toNat } → ClRel p' x y := by
      intro x y hx hy
      constructor
      · rw [hx, hy]
        simp only [Outcome.mapS, OclPW.nat, hif, hs, e2]
      · intro a q he
        rw [hx] at he
        simp only [Outcome.ok.injEq] at he
        rw [← he.2]
        subst hl'
        refine ⟨?_, hwd.1, hwd.2, hp'.out, hp'.ilen, hp'.olen⟩
        show (p.bits + (64#32 - n)).toNat < 64
        omega
    have hbit : p'.bits = p.bits := by rw [hl']
    refine hx _ _ ?_ ?_
    · show Outcome.ok _ { p' with word := p'.word + 1, buffer := _, bits := _ } = _
      simp only [hbit]
    · show M.bind _ _ { p'.nat with word := p'.nat.word + 1 } = _
      unfold M.bind M.access
      simp only [hm]
      rfl
  · rw [wlt] at hl
    have h2 : cshl p.buffer (n.toNat : Int) = some (p.buffer <<< n.toNat) := by
      unfold cshl
      rw [if_pos (by omega)]
      rfl
    have e2 : clShl p.buffer n = p.buffer <<< n.toNat := clShl_eq _ rfl (by omega)
    have hs : (p.bits - n).toNat = p.bits.toNat - n.toNat := wsub32 (by omega)
    have hm : winHit p.nat.buffer p.nat.bits n.toNat = some (p.buffer >>> (64 - n.toNat), p.buffer <<< n.toNat, p.bits.toNat - n.toNat) := by
      unfold winHit
      have h2' : cshl p.nat.buffer (n.toNat : Int) = some (p.buffer <<< n.toNat) := h2
      have hv' : cshr p.nat.buffer (64 - (n.toNat : Int)) = some (p.buffer >>> (64 - n.toNat)) := hv
      rw [hv', h2']
      rfl
    have hx : ∀ (x : M OclPW (BitVec 64)) (y : M OclP (BitVec 64)),
        x p = .ok (p.buffer >>> (64 - n.toNat)) { p with bits := p.bits - n, buffer := clShl p.buffer n } →
        y p.nat = .ok (p.buffer >>> (64 - n.toNat)) { p.nat with buffer := p.buffer <<< n.toNat, bits := p.bits.toNat - n.toNat } →
        ClRel p x y := by
      intro x y hx hy
      constructor
      · rw [hx, hy]
        simp only [Outcome.mapS, OclPW.nat, hs, e2]
      · intro a q he
        rw [hx] at he
        simp only [Outcome.ok.injEq] at he
        rw [← he.2]
        refine ⟨?_, hp.word, hp.word', hp.out, hp.ilen, hp.olen⟩
        show (p.bits - n).toNat < 64
        omega
    refine hx _ _ rfl ?_
    · show M.bind _ _ p.nat = _
      unfold M.bind M.access
      simp only [hm]
      rfl

/-- `n` bits are below `2 ^ n` -/
theorem oclReadBitsW_lt (e : Endian) {p p' : OclPW} {n : BitVec 32} {v : BitVec 64} (hn : 1 ≤ n.toNat ∧ n.toNat ≤ 64)
    (h : oclReadBitsW e n p = .ok v p') : v.toNat < 2 ^ n.toNat := by
  unfold oclReadBitsW at h
  obtain ⟨q, q', hg, h⟩ := wbind_ok h
  cases hg
  have h64 : (64#32 - n).toNat = 64 - n.toNat := wsub32 (by exact hn.2)
  have hval : (clShr p.buffer (64#32 - n)).toNat < 2 ^ n.toNat := by
    rw [clShr_eq _ h64 (by omega)]
    exact ushr_lt _ _ hn.2
  split at h
  · next hlt =>
    rw [wlt] at hlt
    split at h
    · cases h
    · obtain ⟨w, q1, -, h⟩ := wbind_ok h
      obtain ⟨_, q2, -, h2⟩ := wbind_ok h
      obtain ⟨_, q3, -, h3⟩ := wbind_ok h2
      change Outcome.ok _ q3 = _ at h3
      simp only [Outcome.ok.injEq] at h3
      rw [← h3.1, BitVec.toNat_or]
      have hnb : (n - p.bits).toNat = n.toNat - p.bits.toNat := wsub32 (by omega)
      refine Nat.or_lt_two_pow hval ?_
      rw [clShr_eq w (m := 64 - (n.toNat - p.bits.toNat)) (by rw [wsub32 (by rw [hnb]; show _ ≤ 64; omega), hnb]; rfl) (by omega)]
      exact Nat.lt_of_lt_of_le (ushr_lt _ _ (by omega)) (Nat.pow_le_pow_right (by decide) (by omega))
  · obtain ⟨_, q1, -, h⟩ := wbind_ok h
    cases h
    exact hval

theorem rel_oclGetIndex {p : OclPW} (hp : p.Inv) (size : BitVec 8) (index fsize : BitVec 64) (k : Nat) (hk : 3 ≤ k ∧ k ≤ 11)
    (hf : fsize.toNat = 2 ^ k) (hs : size.toNat ≤ 8) (hi : index.toNat < 2 ^ 9) :
    ClRelV BitVec.toNat p (oclGetIndexW size index fsize) (oclGetIndex size.toNat index.toNat (2 ^ k)) := by
  unfold oclGetIndexW oclGetIndex
  refine .get ?_
  have hout := hp.out
  have hsm := hp.olen
  have hsz : (size.setWidth 64).toNat = size.toNat := by
    rw [BitVec.toNat_setWidth, Nat.mod_eq_of_lt (by omega)]
  have ht : (BitVec.ofNat 64 p.out * 8#64).toNat = p.out * 8 := by
    rw [BitVec.toNat_mul, BitVec.toNat_ofNat]
    show p.out % 2 ^ 64 * 8 % 2 ^ 64 = _
    omega
  obtain ⟨ho, hol⟩ := indexOffsetW_toNat index (size.setWidth 64) fsize _ k hk hf hi (by omega) (by rw [ht]; omega)
  rw [ht, hsz] at ho
  simp only
  have hadd : (indexOffsetW index (size.setWidth 64) fsize (BitVec.ofNat 64 p.out * 8#64) + size.setWidth 64).toNat =
      indexOffset index.toNat size.toNat (2 ^ k) (p.out * 8) + size.toNat := by
    rw [BitVec.toNat_add, hsz, ← ho]
    omega
  exact .ite (by rw [gt_iff_lt, wlt, hadd, ht]; exact Iff.rfl) (fun _ => .fail _) fun _ => .pure hp ho

/-- An offset that `get_index` returns lies in the output -/
theorem oclGetIndexW_lt {p p' : OclPW} (hp : p.Inv) {size : BitVec 8} {index fsize o : BitVec 64} (hs : size.toNat ≤ 8)
    (hk : ∃ k, 3 ≤ k ∧ k ≤ 11 ∧ fsize.toNat = 2 ^ k) (hi : index.toNat < 2 ^ 9)
    (h : oclGetIndexW size index fsize p = .ok o p') : o.toNat + size.toNat ≤ 8 * p.out ∧ p' = p := by
  obtain ⟨k, hk1, hk2, hf⟩ := hk
  have hr := (rel_oclGetIndex hp size index fsize k ⟨hk1, hk2⟩ hf hs hi).eq
  have h2 : (oclGetIndexW size index fsize p).mapSV OclPW.nat BitVec.toNat = .ok o.toNat p'.nat := by rw [h]; rfl
  unfold oclGetIndexW at h
  obtain ⟨q, q', hg, h1⟩ := wbind_ok h
  cases hg
  have hpp : p' = p ∧ ¬ (indexOffsetW index (size.setWidth 64) fsize (BitVec.ofNat 64 p.out * 8#64) + size.setWidth 64 >
      BitVec.ofNat 64 p.out * 8#64) := by
    dsimp only at h1
    split at h1
    · cases h1
    · next hn => cases h1; exact ⟨rfl, hn⟩
  refine ⟨?_, hpp.1⟩
  rw [h2] at hr
  unfold oclGetIndex at hr
  have hr : Outcome.ok o.toNat p'.nat = (if indexOffset index.toNat size.toNat (2 ^ k) (p.nat.out * 8) + size.toNat > p.nat.out * 8 then
      M.fail .EINVAL else pure (indexOffset index.toNat size.toNat (2 ^ k) (p.nat.out * 8)) : M OclP Nat) p.nat := hr
  split at hr
  · cases hr
  · next hn =>
    have hr : Outcome.ok o.toNat p'.nat = Outcome.ok (indexOffset index.toNat size.toNat (2 ^ k) (p.nat.out * 8)) p.nat := hr
    simp only [Outcome.ok.injEq] at hr
    have ho : p.nat.out = p.out := rfl
    omega

/-! ## The templates -/

/-- The fields of a template as natural numbers -/
def fieldNat (f : BitVec 32 × BitVec 32 × BitVec 8) : Nat × Nat × Nat := (f.1.toNat, f.2.1.toNat, f.2.2.toNat)

theorem oclRowW_nat : ∀ op : BitVec 8, op < 26#8 → (oclRowW op).map fieldNat = oclRow op.toNat ∧ (oclOpbitsW op).toNat = oclOpbits op.toNat := by
  decide +kernel

/-- The fields fit: into the parameter bits, and into the output word -/
def fieldsGood : List (BitVec 32 × BitVec 32 × BitVec 8) → Nat → Nat → Bool
  | [], _, _ => true
  | f :: fs, opbits, bits =>
    decide (f.2.2.toNat ≤ opbits ∧ f.2.1.toNat ≤ 4 ∧ f.2.1.toNat * 8 + bits ≤ 64 ∧ (f.2.2.toNat = 0 → f.1 = 0#32) ∧
      (f.1 ≠ 0#32 → f.2.2.toNat ≤ 9 ∧ (f.2.1 = 2#32 ∨ f.2.1 = 4#32))) &&
    fieldsGood fs (opbits - f.2.2.toNat) (bits + f.2.1.toNat * 8)

theorem oclRowW_good : ∀ op : BitVec 8, op < 26#8 → op ≠ 25#8 → fieldsGood (oclRowW op) (oclOpbitsW op).toNat 0 = true ∧
    1 ≤ (oclOpbitsW op).toNat ∧ (oclOpbitsW op).toNat ≤ 64 := by
  decide +kernel

theorem oclValueW_eq (params : BitVec 64) (opbits numBits : BitVec 8) (h : numBits.toNat ≤ opbits.toNat) (h64 : opbits.toNat ≤ 64) :
    oclValueW params opbits numBits = oclValue params opbits.toNat numBits.toNat := by
  unfold oclValueW oclValue
  have hn : (numBits.setWidth 32).toNat = numBits.toNat := by
    rw [BitVec.toNat_setWidth, Nat.mod_eq_of_lt (by omega)]
  have ho : (opbits.setWidth 32).toNat = opbits.toNat := by
    rw [BitVec.toNat_setWidth, Nat.mod_eq_of_lt (by omega)]
  have h1 : clShr params (opbits.setWidth 32 - numBits.setWidth 32) = oclShr params ((opbits.toNat : Int) - numBits.toNat) := by
    unfold clShr oclShr
    rw [wsub32 (by omega), hn, ho]
    congr 1
    omega
  have h2 : clShr (BitVec.allOnes 64) (64#32 - numBits.setWidth 32) = oclShr (BitVec.allOnes 64) (64 - (numBits.toNat : Int)) := by
    unfold clShr oclShr
    rw [wsub32 (by rw [hn]; show _ ≤ 64; omega), hn]
    rw [show (64#32).toNat = 64 from rfl]
    congr 1
    omega
  rw [h1, h2]
  congr 2
  by_cases hz : numBits = 0#8
  · subst hz; decide
  · have hz' : numBits.toNat ≠ 0 := fun hc => hz (BitVec.eq_of_toNat_eq hc)
    rw [if_pos hz', show decide (numBits ≠ 0#8) = true from decide_eq_true hz]
    decide

theorem oclValueW_lt (params : BitVec 64) (opbits numBits : BitVec 8) (h1 : 1 ≤ numBits.toNat) (h2 : numBits.toNat ≤ 9) :
    (oclValueW params opbits numBits).toNat < 2 ^ 9 := by
  unfold oclValueW
  have hn : (numBits.setWidth 32).toNat = numBits.toNat := by
    rw [BitVec.toNat_setWidth, Nat.mod_eq_of_lt (by omega)]
  rw [clShr_eq (BitVec.allOnes 64) (m := 64 - numBits.toNat) (by rw [wsub32 (by rw [hn]; show _ ≤ 64; omega), hn]; rfl) (by omega),
    BitVec.toNat_and, BitVec.toNat_and]
  have := ushr_lt (BitVec.allOnes 64) numBits.toNat (by omega)
  have hp : 2 ^ numBits.toNat ≤ 2 ^ 9 := Nat.pow_le_pow_right (by decide) h2
  exact Nat.lt_of_le_of_lt (Nat.le_trans Nat.and_le_right Nat.and_le_right) (Nat.lt_of_lt_of_le this hp)

theorem rel_oclRef (e : Endian) {p : OclPW} (hp : p.Inv) (dst : BitVec 32) (offset : BitVec 64) (hd : dst.toNat ≤ 4) (ho : offset.toNat < 2 ^ 63) :
    ClRel p (oclRefW e dst offset) (oclRef e dst.toNat offset.toNat) := by
  unfold oclRefW oclRef
  have h1 : (offset >>> 1).toNat = offset.toNat >>> 1 := BitVec.toNat_ushiftRight _ _
  have h2 : (offset >>> 1 + 1#64).toNat = offset.toNat >>> 1 + 1 := by
    rw [BitVec.toNat_add, h1, Nat.shiftRight_eq_div_pow]
    show (offset.toNat / 2 ^ 1 + 1) % 2 ^ 64 = _
    omega
  have h3 : (dst <<< 3).toNat = dst.toNat <<< 3 := by
    rw [BitVec.toNat_shiftLeft, Nat.shiftLeft_eq]
    omega
  simp only
  rw [h1, h2]
  refine .bind (.access hp rfl) fun a p1 _ hp1 => .bind (.access hp1 rfl) fun b p2 _ hp2 => ?_
  have h4 : ∀ v : BitVec 64, clShr v (64#32 - dst <<< 3) = oclShr v (64 - ((dst.toNat <<< 3 : Nat) : Int)) := by
    intro v
    unfold clShr oclShr
    rw [wsub32 (by rw [h3, Nat.shiftLeft_eq]; show _ ≤ 64; omega), h3, Nat.shiftLeft_eq]
    show v >>> ((64 - dst.toNat * 2 ^ 3) % 64) = _
    congr 1
    omega
  rw [h4]
  exact .pure hp2 _

theorem rel_oclField (e : Endian) (params : BitVec 64) {p : OclPW} (hp : p.Inv) (f : BitVec 32 × BitVec 32 × BitVec 8)
    (l : BitVec 8 × BitVec 64 × BitVec 32) (h64 : l.1.toNat ≤ 64) (h1 : f.2.2.toNat ≤ l.1.toNat) (h2 : f.2.1.toNat ≤ 4)
    (h3 : f.2.1.toNat * 8 + l.2.2.toNat ≤ 64) (h4 : f.2.2.toNat = 0 → f.1 = 0#32)
    (h5 : f.1 ≠ 0#32 → f.2.2.toNat ≤ 9 ∧ (f.2.1 = 2#32 ∨ f.2.1 = 4#32)) :
    ClRelV (fun l => (l.1.toNat, l.2.1, l.2.2.toNat)) p (oclFieldW e params f.1 f.2.1 f.2.2 l)
      (oclField e params f.1.toNat f.2.1.toNat f.2.2.toNat (l.1.toNat, l.2.1, l.2.2.toNat)) := by
  obtain ⟨isIndex, dst, numBits⟩ := f
  obtain ⟨opbits, word, bits⟩ := l
  simp only at h64 h1 h2 h3 h4 h5 ⊢
  unfold oclFieldW oclField
  dsimp only
  rw [oclValueW_eq params opbits numBits h1 h64]
  have hsh : (dst <<< 3).toNat = dst.toNat <<< 3 := by
    rw [BitVec.toNat_shiftLeft, Nat.shiftLeft_eq]
    omega
  have hsub : (64#32 - dst <<< 3).toNat = 64 - dst.toNat <<< 3 := by
    rw [wsub32 (by rw [hsh, Nat.shiftLeft_eq]; show _ ≤ 64; omega), hsh]; rfl
  have hfin : ∀ (v : BitVec 64) (p' : OclPW), p'.Inv → ClRelV (fun l : BitVec 8 × BitVec 64 × BitVec 32 => (l.1.toNat, l.2.1, l.2.2.toNat)) p'
      (pure (opbits - numBits, word ||| clShl v (64#32 - dst <<< 3 - bits), bits + dst <<< 3))
      (pure (opbits.toNat - numBits.toNat, word ||| oclShl v (64 - ((dst.toNat <<< 3 : Nat) : Int) - bits.toNat), bits.toNat + dst.toNat <<< 3)) := by
    intro v p' hp'
    refine .pure hp' ?_
    have e1 : (opbits - numBits).toNat = opbits.toNat - numBits.toNat := by
      rw [BitVec.toNat_sub]
      omega
    have e2 : clShl v (64#32 - dst <<< 3 - bits) = oclShl v (64 - ((dst.toNat <<< 3 : Nat) : Int) - bits.toNat) := by
      unfold clShl oclShl
      rw [wsub32 (by rw [hsub, Nat.shiftLeft_eq]; omega), hsub, Nat.shiftLeft_eq]
      congr 1
      omega
    have e3 : (bits + dst <<< 3).toNat = bits.toNat + dst.toNat <<< 3 := by
      rw [BitVec.toNat_add, hsh, Nat.shiftLeft_eq]
      omega
    simp only [e1, e2, e3]
  have hne : isIndex ≠ 0#32 ↔ isIndex.toNat ≠ 0 := by
    exact not_congr ⟨fun h => by rw [h]; rfl, fun h => BitVec.eq_of_toNat_eq h⟩
  refine .ite hne (fun hi => ?_) fun _ => hfin _ _ hp
  obtain ⟨h9, hdst⟩ := h5 hi
  have hn1 : 1 ≤ numBits.toNat := by
    rcases Nat.eq_zero_or_pos numBits.toNat with h | h
    · exact absurd (h4 h) hi
    · exact h
  have hlt := oclValueW_lt params opbits numBits hn1 h9
  rw [oclValueW_eq params opbits numBits h1 h64] at hlt
  have hfz : ∃ k, 3 ≤ k ∧ k ≤ 11 ∧ (oclFifoSizeW dst).toNat = 2 ^ k ∧ oclFifoSize dst.toNat = 2 ^ k := by
    rcases hdst with rfl | rfl
    · exact ⟨9, by decide, by decide, by decide, by decide⟩
    · exact ⟨11, by decide, by decide, by decide, by decide⟩
  obtain ⟨k, hk1, hk2, hk3, hk4⟩ := hfz
  have hd8 : (dst.setWidth 8).toNat = dst.toNat := by
    rw [BitVec.toNat_setWidth, Nat.mod_eq_of_lt (by omega)]
  have hg := rel_oclGetIndex hp (dst.setWidth 8) (oclValue params opbits.toNat numBits.toNat) (oclFifoSizeW dst) k ⟨hk1, hk2⟩ hk3
    (by omega) hlt
  rw [hd8, ← hk4] at hg
  refine .bindV hg fun o p1 ho hp1 => ?_
  obtain ⟨hol, rfl⟩ := oclGetIndexW_lt hp (by omega) ⟨k, hk1, hk2, hk3⟩ hlt ho
  have := hp1.out
  have := hp1.olen
  exact .bind (rel_oclRef e hp1 dst o h2 (by omega)) fun v p2 _ hp2 => hfin v p2 hp2

theorem rel_oclFields (e : Endian) (params : BitVec 64) : ∀ (fs : List (BitVec 32 × BitVec 32 × BitVec 8)) (l : BitVec 8 × BitVec 64 × BitVec 32)
    {p : OclPW}, p.Inv → l.1.toNat ≤ 64 → fieldsGood fs l.1.toNat l.2.2.toNat = true →
    ClRelV (fun l => (l.1.toNat, l.2.1, l.2.2.toNat)) p (oclFieldsW e params fs l)
      (oclFields e params (fs.map fieldNat) (l.1.toNat, l.2.1, l.2.2.toNat))
  | [], _, _, hp, _, _ => .pure hp rfl
  | f :: fs, l, p, hp, h64, hg => by
    unfold fieldsGood at hg
    rw [Bool.and_eq_true, decide_eq_true_eq] at hg
    obtain ⟨⟨h1, h2, h3, h4, h5⟩, hg⟩ := hg
    refine .bindV (rel_oclField e params hp f l h64 h1 h2 h3 h4 h5) fun l' p' hl hp' => ?_
    have hl' : l'.1.toNat = l.1.toNat - f.2.2.toNat ∧ l'.2.2.toNat = l.2.2.toNat + f.2.1.toNat * 8 := by
      unfold oclFieldW at hl
      dsimp only at hl
      have hfin : ∀ (v : BitVec 64) (q q' : OclPW), (pure (l.1 - f.2.2, l.2.1 ||| clShl v (64#32 - f.2.1 <<< 3 - l.2.2), l.2.2 + f.2.1 <<< 3) :
          M OclPW (BitVec 8 × BitVec 64 × BitVec 32)) q = .ok l' q' → l'.1.toNat = l.1.toNat - f.2.2.toNat ∧ l'.2.2.toNat = l.2.2.toNat + f.2.1.toNat * 8 := by
        intro v q q' hh
        cases hh
        have hsh : (f.2.1 <<< 3).toNat = f.2.1.toNat * 8 := by
          rw [BitVec.toNat_shiftLeft, Nat.shiftLeft_eq]
          omega
        constructor
        · show (l.1 - f.2.2).toNat = _
          rw [BitVec.toNat_sub]
          omega
        · show (l.2.2 + f.2.1 <<< 3).toNat = _
          rw [BitVec.toNat_add, hsh]
          omega
      split at hl
      · obtain ⟨o, q, -, hl2⟩ := wbind_ok hl
        obtain ⟨v, q2, -, hl3⟩ := wbind_ok hl2
        exact hfin _ _ _ hl3
      · exact hfin _ _ _ hl
    exact rel_oclFields e params fs l' hp' (by omega) (by rw [hl'.1, hl'.2]; exact hg)

theorem rel_oclPut {p : OclPW} (hp : p.Inv) (bs : List Byte) (hb : bs.length = 8) : ClRel p (oclPutW bs) (oclPut bs) := by
  unfold oclPutW oclPut
  have key : ∀ (x : M OclPW Unit) (y : M OclP Unit), x p = (match writeBytes p.buf (8 * p.out) bs with
      | some b => .ok () { p with buf := b, out := p.out + 1 }
      | none => .ub) → y p.nat = (match writeBytes p.buf (8 * p.out) bs with
      | some b => .ok () { p.nat with buf := b, out := p.out + 1 }
      | none => .ub) → ClRel p x y := by
    intro x y hx hy
    have hs := hp.olen
    have hil := hp.ilen
    unfold writeBytes at hx hy
    by_cases hc : 8 * p.out + bs.length ≤ p.buf.length
    · rw [if_pos hc] at hx hy
      constructor
      · rw [hx, hy]
        simp only [Outcome.mapS, OclPW.nat]
      · intro a p' he
        rw [hx] at he
        simp only [Outcome.ok.injEq] at he
        rw [← he.2]
        have hlen : (p.buf.take (8 * p.out) ++ bs ++ p.buf.drop (8 * p.out + bs.length)).length = p.buf.length := by
          simp only [List.length_append, List.length_take, List.length_drop]
          omega
        refine ⟨hp.bits, hp.word, hp.word', ?_, ?_, ?_⟩
        · show 8 * (p.out + 1) ≤ (p.buf.take (8 * p.out) ++ bs ++ p.buf.drop (8 * p.out + bs.length)).length
          rw [hlen]
          omega
        · unfold OclPW.input at hil ⊢
          dsimp only
          cases hsrc : p.src with
          | none =>
            show (p.buf.take (8 * p.out) ++ bs ++ p.buf.drop (8 * p.out + bs.length)).length < _
            omega
          | some s => rw [hsrc] at hil; exact hil
        · show (p.buf.take (8 * p.out) ++ bs ++ p.buf.drop (8 * p.out + bs.length)).length < _
          omega
    · rw [if_neg hc] at hx hy
      constructor
      · rw [hx, hy]; rfl
      · intro a p' he
        rw [hx] at he
        cases he
  apply key
  · show M.bind _ _ p = _
    unfold M.bind M.update
    cases h : writeBytes p.buf (8 * p.out) bs <;> simp only [h, Option.map] <;> rfl
  · show M.bind _ _ p.nat = _
    unfold M.bind M.update
    have hw : writeBytes p.nat.buf (8 * p.nat.out) bs = writeBytes p.buf (8 * p.out) bs := rfl
    cases h : writeBytes p.buf (8 * p.out) bs <;> rw [h] at hw <;> simp only [hw, Option.map] <;> rfl

theorem rel_oclRoom {p : OclPW} (hp : p.Inv) (k : BitVec 64) (m : Nat) (hk : k.toNat = m * 8) (hm : m ≤ 64) :
    ClRel p (oclRoomW k) (oclRoom m) := by
  unfold oclRoomW oclRoom
  refine .get ?_
  have h8 : (BitVec.ofNat 64 p.out * 8#64 + k).toNat = p.out * 8 + m * 8 := by
    rw [BitVec.toNat_add, BitVec.toNat_mul, BitVec.toNat_ofNat, hk]
    have := hp.out
    have := hp.olen
    show (p.out % 2 ^ 64 * 8 % 2 ^ 64 + m * 8) % 2 ^ 64 = _
    omega
  exact .ite (by rw [gt_iff_lt, wlt, h8]; exact Iff.rfl) (fun _ => .fail _) fun _ => .pure hp _

theorem readBytes_len_w {m : List Byte} {i k : Nat} {bs : List Byte} (h : readBytes m i k = some bs) : bs.length = k := by
  unfold readBytes at h
  split at h
  · cases h
    simp only [List.length_take, List.length_drop]
    omega
  · cases h

theorem rel_oclDoOp (e : Endian) {p : OclPW} (hp : p.Inv) (op : BitVec 8) (h25 : op ≠ 25#8) : ClRel p (oclDoOpW e op) (oclDoOp e op.toNat) := by
  unfold oclDoOpW oclDoOp
  refine .ite (by rw [ge_iff_le, wle]; exact Iff.rfl) (fun _ => .fail _) fun hlt => ?_
  have hlt : op < 26#8 := by
    rw [ge_iff_le, wle] at hlt
    rw [wlt]
    omega
  obtain ⟨hrow, hop⟩ := oclRowW_nat op hlt
  obtain ⟨hgood, h1, h2⟩ := oclRowW_good op hlt h25
  have hw : ((oclOpbitsW op).setWidth 32).toNat = oclOpbits op.toNat := by
    rw [BitVec.toNat_setWidth, Nat.mod_eq_of_lt (by omega), hop]
  have hr := rel_oclReadBits e hp ((oclOpbitsW op).setWidth 32) (by rw [hw, ← hop]; exact ⟨h1, h2⟩)
  rw [hw] at hr
  refine .bind hr fun params p1 _ hp1 => ?_
  have hf := rel_oclFields e params (oclRowW op) (oclOpbitsW op, 0#64, 0#32) hp1 h2 hgood
  rw [hrow] at hf
  simp only [hop] at hf
  refine RelV.toRelAt (.bindV hf fun l p2 _ hp2 => .bind (rel_oclRoom hp2 8#64 1 rfl (by decide)) fun _ p3 _ hp3 => ?_)
  exact .ofRelAt (rel_oclPut hp3 _ (by cases e <;> rfl))

theorem rel_oclRepeat : ∀ (k : Nat) {p : OclPW}, p.Inv → ClRel p (oclRepeatW k) (oclRepeat k)
  | 0, _, hp => .pure hp _
  | k + 1, _, hp => .bind (.access hp rfl) fun bs p' hb hp' => .bind (rel_oclPut hp' bs (by
      have := (waccess_ok hb).1
      split at this
      · cases this
      · exact readBytes_len_w this)) fun _ _ _ hp'' => rel_oclRepeat k hp''

theorem rel_oclIter (e : Endian) {p : OclPW} (hp : p.Inv) : ClRel p (oclIterW e) (oclIter e) := by
  unfold oclIterW oclIter
  refine .bind (rel_oclReadBits e hp 5#32 (by decide)) fun op p1 hop hp1 => ?_
  have hopl : op.toNat < 2 ^ 5 := oclReadBitsW_lt e (by decide) hop
  refine .ite (BitVec.toNat_inj.symm) (fun _ => ?_) fun _ => .ite (BitVec.toNat_inj.symm) (fun _ => ?_) fun _ =>
    .ite (BitVec.toNat_inj.symm) (fun _ => .pure hp1 _) fun _ => .ite (BitVec.toNat_inj.symm) (fun _ => ?_) fun h25 => ?_
  · refine .bind (rel_oclReadBits e hp1 6#32 (by decide)) fun rep p2 hrep hp2 => .get (.ite Iff.rfl (fun _ => .fail _) fun _ => ?_)
    have hl : rep.toNat < 2 ^ 6 := oclReadBitsW_lt e (by decide) hrep
    have h1 : (rep + 1#64).toNat = rep.toNat + 1 := by
      rw [BitVec.toNat_add]
      show (rep.toNat + 1) % 2 ^ 64 = _
      omega
    have h8 : ((rep + 1#64) * 8#64).toNat = (rep.toNat + 1) * 8 := by
      rw [BitVec.toNat_mul, h1]
      show (rep.toNat + 1) * 8 % 2 ^ 64 = _
      omega
    rw [h1]
    exact .bind (rel_oclRoom hp2 _ _ h8 (by omega)) fun _ p3 _ hp3 => .bind (rel_oclRepeat _ hp3) fun _ _ _ hp4 => .pure hp4 _
  · exact .bind (rel_oclRoom hp1 8#64 1 rfl (by decide)) fun _ p2 _ hp2 => .bind (rel_oclPut hp2 _ rfl) fun _ _ _ hp3 => .pure hp3 _
  · refine .bind (rel_oclReadBits e hp1 8#32 (by decide)) fun v p2 hv hp2 => ?_
    have hl : v.toNat < 2 ^ 8 := oclReadBitsW_lt e (by decide) hv
    refine RelV.toRelAt (.bindV (rel_oclGetIndex hp2 8#8 v 2048#64 11 (by decide) rfl (by decide) (by omega)) fun o p3 _ hp3 =>
      .bind (rel_oclRoom hp3 8#64 1 rfl (by decide)) fun _ p4 _ hp4 => ?_)
    have h3 : (o >>> 3).toNat = o.toNat >>> 3 := BitVec.toNat_ushiftRight _ _
    rw [h3]
    refine .bind (.access hp4 rfl) fun bs p5 hb hp5 => .bind (rel_oclPut hp5 bs (readBytes_len_w (waccess_ok hb).1)) fun _ _ _ hp6 => .pure hp6 rfl
  · have hs : (op.setWidth 8).toNat = op.toNat := by
      rw [BitVec.toNat_setWidth, Nat.mod_eq_of_lt (by omega)]
    have hne : op.setWidth 8 ≠ 25#8 := by
      intro hc
      apply h25
      apply BitVec.eq_of_toNat_eq
      rw [← hs, hc]
      rfl
    have := rel_oclDoOp e hp1 (op.setWidth 8) hne
    rw [hs] at this
    exact .bind this fun _ _ _ hp2 => .pure hp2 _

theorem rel_oclWhile (e : Endian) : ∀ (fuel : Nat) {p : OclPW}, p.Inv → ClRel p (M.doWhile (oclIterW e) fuel) (M.doWhile (oclIter e) fuel)
  | 0, _, _ => .timeout
  | fuel + 1, _, hp => .bind (rel_oclIter e hp) fun _ _ _ hp' => .ite Iff.rfl (fun _ => .pure hp' _) fun _ => rel_oclWhile e fuel hp'

theorem rel_oclBody (e : Endian) (fuel : Nat) {p : OclPW} (hp : p.Inv) : ClRelV BitVec.toNat p (oclBodyW e fuel) (oclBody e fuel) := by
  unfold oclBodyW oclBody
  refine .bind (rel_oclWhile e fuel hp) fun _ p1 _ hp1 => .bind (rel_oclReadBits e hp1 32#32 (by decide)) fun _ p2 _ hp2 => .get (.pure hp2 ?_)
  rw [BitVec.toNat_mul, BitVec.toNat_ofNat]
  have := hp2.out
  have := hp2.olen
  show p2.out % 2 ^ 64 * 8 % 2 ^ 64 = p2.out * 8
  omega

theorem oclCoreW_eq (e : Endian) (src : Option (List Byte)) (ioff : Nat) (ilen : BitVec 64) (buf : List Byte) (olen : BitVec 64)
    (hs : (src.getD buf).length < 2 ^ 63) (hb : buf.length < 2 ^ 63) :
    oclCoreW e src ioff ilen buf olen = oclCore e src ioff ilen.toNat buf olen.toNat := by
  have hp : (oclStartW src ioff ilen buf olen).Inv :=
    ⟨by show (0#32).toNat < 64; decide, Nat.zero_le _, fun _ => Nat.zero_le _, Nat.zero_le _, hs, hb⟩
  have hn : (oclStartW src ioff ilen buf olen).nat = oclStart src ioff ilen.toNat buf olen.toNat := rfl
  unfold oclCoreW oclCore oclInitW oclInit
  rw [← hn, oclFetchW_eq e hp 0 (by omega), oclFetchW_eq e hp 1 (by omega), oclFetchW_eq e hp 2 (by omega), oclFetchW_eq e hp 3 (by omega),
    oclFetchW_eq e hp 4 (by omega), oclFetchW_eq e hp 5 (by omega)]
  generalize oclFetch e 0 _ = x0, oclFetch e 1 _ = x1, oclFetch e 2 _ = x2, oclFetch e 3 _ = x3, oclFetch e 4 _ = x4, oclFetch e 5 _ = x5
  cases x0 <;> cases x1 <;> cases x2 <;> cases x3 <;> cases x4 <;> cases x5 <;> try rfl
  next a b c d f g =>
  have hp' : OclPW.Inv { oclStartW src ioff ilen buf olen with la := [a, b, c, d, f, g] } := ⟨hp.bits, hp.word, hp.word', hp.out, hp.ilen, hp.olen⟩
  have hr := (rel_oclBody e (8 * ilen.toNat + 1) hp').eq
  dsimp only
  have hr' : oclBody e (8 * ilen.toNat + 1) { (oclStartW src ioff ilen buf olen).nat with la := [a, b, c, d, f, g] } = _ := hr.symm
  rw [hr']
  cases oclBodyW e (8 * ilen.toNat + 1) { oclStartW src ioff ilen buf olen with la := [a, b, c, d, f, g] } <;> rfl

theorem oclItemW_eq (e : Endian) (fmt : ClFormat) (chunkSize : BitVec 64) (inp buf : List Byte) (ilen olen : Option (BitVec 64))
    (hi : inp.length < 2 ^ 63) (hb : buf.length < 2 ^ 63) :
    oclItemW e fmt chunkSize inp buf ilen olen = oclItem e fmt chunkSize.toNat inp buf (ilen.map BitVec.toNat) (olen.map BitVec.toNat) := by
  have hd : ∀ o : Option (BitVec 64), (o.map BitVec.toNat).getD (2 ^ 64 - 1) = (o.getD (BitVec.allOnes 64)).toNat := by
    intro o
    cases o <;> rfl
  have h8 : ∀ x : BitVec 64, (x / 8#64).toNat = x.toNat / 8 := fun x => BitVec.toNat_udiv
  have hc : BitVec.ofNat 64 chunkSize.toNat = chunkSize := BitVec.ofNat_toNat 64 chunkSize |>.trans (BitVec.setWidth_eq _)
  unfold oclItemW oclItem
  cases fmt
  · dsimp only
    rw [hd, hd, oclCoreW_eq e (some inp) _ _ _ _ hi hb]
  all_goals
    dsimp only
    rw [hd, hc, h8]
    simp only [h8]
    have h1 := fun n : BitVec 64 => oclCoreW_eq e (some inp) ((chunkSize - n).toNat / 8) n buf (olen.getD (BitVec.allOnes 64)) hi hb
    have h2 := fun n : BitVec 64 => oclCoreW_eq e none ((chunkSize - n).toNat / 8) n buf (olen.getD (BitVec.allOnes 64)) hb hb
    simp only [reduceCtorEq, if_true, if_false, h1, h2]
    generalize notMarked e _ = x
    rcases x with _ | _ | _ <;> rfl

end Lib842
