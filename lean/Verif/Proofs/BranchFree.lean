import Verif.Model.BranchFree
import Verif.Proofs.OclKernel
import Verif.Proofs.OptDecomp
import Verif.Proofs.OptComp
/-!
# The branch-free configuration does the same as the default one
-/

namespace Lib842
open Spec ODecomp

/-! ## Shifts -/

theorem OverShift.r_some (S : OverShift) {x : BitVec 64} {k : Int} {m : Nat} (hk : k = m) (hm : m < 64) :
    S.r x k = some (x >>> m) := by
  unfold OverShift.r
  rw [cshr_some hk hm]

theorem OverShift.l_some (S : OverShift) {x : BitVec 64} {k : Int} {m : Nat} (hk : k = m) (hm : m < 64) :
    S.l x k = some (x <<< m) := by
  unfold OverShift.l
  rw [cshl_some hk hm]

/-- Shifting right by 64 gives something. -/
def OverShift.Right (S : OverShift) : Prop := ∀ x, ∃ v, S.shr x 64 = some v

theorem OverShift.r_all {S : OverShift} (hS : S.Right) (x : BitVec 64) {k : Int} {m : Nat} (hk : k = m)
    (hm : m ≤ 64) : ∃ v, S.r x k = some v := by
  by_cases h : m < 64
  · exact ⟨_, S.r_some hk h⟩
  · obtain rfl : m = 64 := by omega
    subst hk
    obtain ⟨v, hv⟩ := hS x
    exact ⟨v, by unfold OverShift.r; simpa [cshr] using hv⟩

/-! ## The default configuration while an op is being executed -/

/-- `bs` has been written at the output position. -/
def oafter (p : ODecomp) (bs : List Byte) : ODecomp :=
  { p with buf := p.buf.take p.out ++ bs ++ p.buf.drop (p.out + bs.length), out := p.out + bs.length }

theorem oafter_nil (p : ODecomp) : oafter p [] = p := by
  cases p
  simp [oafter]

theorem oafter_length {p : ODecomp} {bs : List Byte} (h : p.out + bs.length ≤ p.buf.length) :
    (oafter p bs).buf.length = p.buf.length := by
  simp only [oafter, List.length_append, List.length_take, List.length_drop]; omega

theorem oafter_inv {p : ODecomp} (hp : p.OInv) {bs : List Byte} (h : p.out + bs.length ≤ p.buf.length) :
    (oafter p bs).OInv := by
  have hl := oafter_length h
  refine ⟨hp.ilen, ?_, hp.word, hp.win, ?_⟩
  · rw [hl]; exact hp.olen
  · rw [hl]; exact h

theorem oemit_after {p : ODecomp} {bs new : List Byte} (h : p.out + bs.length + new.length ≤ p.buf.length) :
    oemit new (oafter p bs) = .ok () (oafter p (bs ++ new)) := by
  have hl := oafter_length (p := p) (bs := bs) (by omega)
  unfold oemit
  rw [M.update_bind_some (g := fun p : ODecomp => (writeBytes p.buf p.out new).map fun b => { p with buf := b })
    (s' := { oafter p bs with buf := ((oafter p bs).buf.take (oafter p bs).out ++ new ++
      (oafter p bs).buf.drop ((oafter p bs).out + new.length)) })
    (by
      have : (oafter p bs).out + new.length ≤ (oafter p bs).buf.length := by
        rw [hl]; show p.out + bs.length + new.length ≤ _; omega
      simp only [writeBytes, if_pos this, Option.map_some])]
  have e1 : (oafter p bs).buf.take (oafter p bs).out = p.buf.take p.out ++ bs := by
    simp only [oafter]
    rw [List.take_append_of_le_length (by simp; omega), List.take_of_length_le (by simp)]
  have e2 : (oafter p bs).buf.drop ((oafter p bs).out + new.length) =
      p.buf.drop (p.out + (bs ++ new).length) := by
    simp only [oafter]
    rw [List.drop_append, List.drop_of_length_le (by simp; omega), List.nil_append, List.drop_drop]
    congr 1
    simp only [List.length_append, List.length_take]
    omega
  rw [M.modify_apply, e1, e2]
  simp only [oafter, List.append_assoc, List.length_append, Nat.add_assoc]

theorem odoData_emit (e : Endian) {n : Nat} (hn : SizeOk n) {v : BitVec 64} (hv : v.toNat < 2 ^ (n * 8)) :
    ∃ bs : List Byte, bs.length = n ∧ bytesBits bs = bitsOf (n * 8) v.toNat ∧
      odoData e n v = oemit bs := by
  unfold odoData
  rcases hn with rfl | rfl | rfl
  · refine ⟨wordBytes16 .big (v.setWidth 16), rfl, ?_, ?_⟩
    · rw [bytesBits_wordBytes16, BitVec.toNat_setWidth, Nat.mod_eq_of_lt hv]
    · rw [if_pos rfl, wordBytes16_swap]
  · refine ⟨wordBytes32 .big (v.setWidth 32), rfl, ?_, ?_⟩
    · rw [bytesBits_wordBytes32, BitVec.toNat_setWidth, Nat.mod_eq_of_lt hv]
    · rw [if_neg (by omega), if_pos rfl, wordBytes32_swap]
  · refine ⟨wordBytes64 .big v, rfl, ?_, ?_⟩
    · rw [bytesBits_wordBytes64]
    · rw [if_neg (by omega), if_neg (by omega), if_pos rfl, wordBytes64_swap]

theorem odoIndex_after {n i fs : Nat} {p : ODecomp} {bs : List Byte} (h8 : p.out % 8 = 0)
    (hlt : bs.length < 8) (h : p.out + bs.length + n ≤ p.buf.length) :
    odoIndex n i fs (oafter p bs) =
      if indexOffset i n fs p.out + n > p.out then .ok () ((oafter p bs).setError .EINVAL)
      else .ok () (oafter p (bs ++ (p.buf.drop (indexOffset i n fs p.out)).take n)) := by
  have hrd : roundDown (oafter p bs).out 8 = p.out := by
    show roundDown (p.out + bs.length) 8 = p.out
    unfold roundDown; omega
  unfold odoIndex
  rw [M.get_bind_apply]
  simp only [hrd]
  generalize indexOffset i n fs p.out = o
  split
  · rfl
  · rename_i hle
    have hl := oafter_length (p := p) (bs := bs) (by omega)
    rw [M.access_bind_some (g := fun q : ODecomp => readBytes q.buf o n) (readBytes_ok (by omega))]
    have : ((oafter p bs).buf.drop o).take n = (p.buf.drop o).take n := by
      simp only [oafter]
      rw [List.append_assoc, List.drop_append_of_le_length (by simp; omega),
        List.take_append_of_le_length (by simp; omega), List.drop_take, List.take_take]
      congr 1; omega
    rw [this]
    exact oemit_after (by simp; omega)

theorem oemit_keeps {bs : List Byte} {p p' : ODecomp} (h : oemit bs p = .ok () p') :
    p'.errorcode = p.errorcode := by
  unfold oemit at h
  cases hw : writeBytes p.buf p.out bs with
  | none => simp [M.bind_def, M.update, hw] at h
  | some b =>
    rw [M.update_bind_some (g := fun p : ODecomp => (writeBytes p.buf p.out bs).map fun b => { p with buf := b })
      (s' := { p with buf := b }) (by simp [hw]), M.modify_apply] at h
    cases h; rfl

/-- The first error stays. -/
theorem odoIndex_keeps {n i fs : Nat} {p p' : ODecomp} {er : Errno} (he : p.errorcode = some er)
    (h : odoIndex n i fs p = .ok () p') : p'.errorcode = some er := by
  unfold odoIndex at h
  rw [M.get_bind_apply] at h
  generalize indexOffset i n fs (roundDown p.out 8) = o at h
  by_cases hc : o + n > roundDown p.out 8
  · rw [if_pos hc, M.modify_apply] at h
    cases h; rw [setError_eq]; simp [he]
  · rw [if_neg hc] at h
    cases hr : readBytes p.buf o n with
    | none => simp [M.bind_def, M.access, hr] at h
    | some bs =>
      rw [M.access_bind_some (g := fun q : ODecomp => readBytes q.buf o n) hr] at h
      rw [oemit_keeps h, he]

theorem odoData_keeps {e : Endian} {n : Nat} {v : BitVec 64} {p p' : ODecomp}
    (h : odoData e n v p = .ok () p') : p'.errorcode = p.errorcode := by
  unfold odoData at h
  split at h
  · exact oemit_keeps h
  split at h
  · exact oemit_keeps h
  split at h
  · exact oemit_keeps h
  · cases h; rfl

theorem optSteps_keeps {e : Endian} {P : BitVec 64} {er : Errno} (steps : List OptStep) {p p' : ODecomp}
    (he : p.errorcode = some er) (h : optSteps e P steps p = .ok () p') : p'.errorcode = some er := by
  induction steps generalizing p with
  | nil => cases h; exact he
  | cons s ss ih =>
    rw [optSteps, M.bind_def] at h
    cases h1 : optStep e P s p with
    | ok u p1 =>
      rw [h1] at h
      refine ih (p := p1) ?_ h
      cases s with
      | data n sh w =>
        rw [optStep] at h1
        cases hf : field P sh w with
        | none => simp [M.bind_def, M.access, hf] at h1
        | some v =>
          rw [M.access_bind_some (g := fun _ : ODecomp => field P sh w) hf] at h1
          rw [odoData_keeps h1, he]
      | index n sh w fs =>
        rw [optStep] at h1
        cases hf : field P sh w with
        | none => simp [M.bind_def, M.access, hf] at h1
        | some v =>
          rw [M.access_bind_some (g := fun _ : ODecomp => field P sh w) hf] at h1
          exact odoIndex_keeps he h1
    | err _ _ => rw [h1] at h; cases h
    | ub => rw [h1] at h; cases h
    | timeout => rw [h1] at h; cases h

/-- A whole case after an error. -/
theorem optSteps_after (e : Endian) (P : BitVec 64) {acts : List Action} {steps : List OptStep} {m : Nat}
    (h : RowOk acts steps m) {p : ODecomp} (hp : p.OInv) (hsp : p.out + actionsSize acts ≤ p.buf.length)
    {er : Errno} (he : p.errorcode = some er) :
    ∃ p', optSteps e P steps p = .ok () p' ∧ p'.errorcode = some er := by
  obtain ⟨p', h1, -⟩ := optSteps_sound e P h hp hsp
  exact ⟨p', h1, optSteps_keeps steps he h1⟩

/-! ## The fields of the branch-free decoder -/

theorem load64_self (e : Endian) (v : BitVec 64) : load64 e (wordBytes64 e v) 0 = some v := by
  obtain ⟨w, h1, h2⟩ := load64_ok e (m := wordBytes64 e v) (i := 0) (by rw [length_wordBytes64])
  have h3 := wordBytes64_swap e (swapBe64 e v)
  rw [swapBe64_swapBe64] at h3
  rw [h3, bytesBits_wordBytes64, Nat.mul_zero, List.drop_zero, List.take_of_length_le (by simp)] at h2
  rw [h1]
  have := bitsOf_inj h2 (BitVec.isLt _) (BitVec.isLt _)
  rw [swapBe64_inj (BitVec.eq_of_toNat_eq this)]

/-- The value taken from the parameters -/
theorem bf_value (S : OverShift) (P : BitVec 64) {w m : Nat} (hw0 : 1 ≤ w) (hw : w ≤ 64) (hm : m < 64) :
    S.r (BitVec.allOnes 64) (64 - (w : Int)) = some (BitVec.allOnes 64 >>> (64 - w)) ∧
    S.r P ((w + m : Nat) - (w : Int)) = some (P >>> m) ∧
    P >>> m &&& ((if w ≠ 0 then BitVec.allOnes 64 else 0#64) &&& BitVec.allOnes 64 >>> (64 - w)) =
      oclValue P (w + m) w := by
  refine ⟨S.r_some (by omega) (by omega), S.r_some (by omega) hm, ?_⟩
  unfold oclValue
  rw [oclShr_eq (m := m) (by omega) hm, oclShr_eq (m := 64 - w) (by omega) (by omega)]

theorem bf_ref (e : Endian) {n : Nat} (hn : n = 2 ∨ n = 4) {bs : List Byte} (hb : bs.length = n) (v : BitVec 64) :
    ∃ w, load64 e (bs ++ (wordBytes64 e v).drop n) 0 = some w ∧
      (swapBe64 e w >>> (64 - 8 * n)).toNat = bitsVal (bytesBits bs) := by
  have hl : (bs ++ (wordBytes64 e v).drop n).length = 8 := by
    rw [List.length_append, List.length_drop, length_wordBytes64, hb]
    rcases hn with rfl | rfl <;> rfl
  obtain ⟨w, h1, h2⟩ := load64_ok e (m := bs ++ (wordBytes64 e v).drop n) (i := 0) (by omega)
  refine ⟨w, h1, ?_⟩
  rw [Nat.mul_zero, List.drop_zero, List.take_of_length_le (by rw [length_bytesBits]; omega)] at h2
  have h3 := eq_bitsVal h2 (BitVec.isLt _)
  rw [bytesBits_append, bitsVal_append, length_bytesBits, List.length_drop, length_wordBytes64] at h3
  have hlt := bitsVal_lt (bytesBits ((wordBytes64 e v).drop n))
  rw [length_bytesBits, List.length_drop, length_wordBytes64] at hlt
  rw [BitVec.toNat_ushiftRight, h3, Nat.shiftRight_eq_div_pow, show 64 - 8 * n = 8 * (8 - n) by omega]
  rw [Nat.mul_comm, Nat.mul_add_div (Nat.two_pow_pos _), Nat.div_eq_of_lt hlt, Nat.add_zero]

/-- A literal field -/
theorem bfField_data {S : OverShift} (hS : S.Right) (e : Endian) (P : BitVec 64) {m : Nat} (hm : m < 64)
    {ow : BitVec 64} {bs : List Byte} (hacc : Acc ow bs) (hl : bs.length + 2 ≤ 8) {p : ODecomp}
    (herr : p.errorcode = none) :
    ∃ ow' new, new.length = 2 ∧ Acc ow' (bs ++ new) ∧
      bitsOf (16 + m) P.toNat = bytesBits new ++ bitsOf m P.toNat ∧
      bfField S e P 0 2 16 (16 + m, ow, 8 * bs.length) p = .ok (m, ow', 8 * (bs ++ new).length) p := by
  obtain ⟨hv, hb⟩ := oclValue_spec P (w := 16) (m := m) (by omega) (by omega) hm
  obtain ⟨hs1, hs2, hval⟩ := bf_value S P (w := 16) (m := m) (by omega) (by omega) hm
  have hn : bytesBits (wordBytes16 .big ((oclValue P (16 + m) 16).setWidth 16)) =
      bitsOf 16 (oclValue P (16 + m) 16).toNat := by
    rw [bytesBits_wordBytes16, BitVec.toNat_setWidth, Nat.mod_eq_of_lt hv]
  have hacc' := hacc.step (v := oclValue P (16 + m) 16)
    (new := wordBytes16 .big ((oclValue P (16 + m) 16).setWidth 16)) (by rw [length_wordBytes16]; omega)
    (by simp [wordBytes16]) (by rw [hn, bitsVal_bitsOf, Nat.mod_eq_of_lt hv])
  refine ⟨_, _, length_wordBytes16 _ _, hacc', ?_, ?_⟩
  · rw [hn]; exact hb
  · obtain ⟨y, hy⟩ := S.r_all hS (swapBe64 e 0#64) (k := (64 : Int) - ((2 <<< 3 : Nat) : Int)) (m := 48) rfl (by omega)
    unfold bfField
    rw [M.access_bind_some (g := fun _ : ODecomp => S.r (BitVec.allOnes 64) (64 - ((16 : Nat) : Int))) hs1]
    rw [M.access_bind_some (g := fun _ : ODecomp => S.r P ((16 + m : Nat) - ((16 : Nat) : Int))) hs2]
    simp only [if_true, ne_eq, not_true_eq_false, if_false, M.pure_bind_apply]
    rw [M.bind_ok (checkError_none herr)]
    rw [M.access_bind_some (g := fun p : ODecomp => readBytes p.buf (0 * 0) (2 * 0)) (a := []) (by
      simp [readBytes])]
    rw [M.access_bind_some (g := fun _ : ODecomp => load64 e ([] ++ (wordBytes64 e 0#64).drop (2 * 0)) 0)
      (load64_self e 0#64)]
    rw [M.access_bind_some (g := fun _ : ODecomp => S.r (swapBe64 e 0#64) ((64 : Int) - ((2 <<< 3 : Nat) : Int))) hy]
    rw [show y * BitVec.ofNat 64 0 ||| _ = oclValue P (16 + m) 16 from by
      rw [← hval]; simp]
    rw [M.access_bind_some (g := fun _ : ODecomp => S.l (oclValue P (16 + m) 16) ((64 : Int) - ((2 <<< 3 : Nat) : Int) - ((8 * bs.length : Nat) : Int)))
      (S.l_some (m := 64 - 8 * 2 - 8 * bs.length) (by
        have : (2 <<< 3 : Nat) = 16 := rfl
        rw [this]; omega) (by omega))]
    rw [M.pure_apply, length_wordBytes16, List.length_append, length_wordBytes16, Nat.add_sub_cancel_left]
    rfl

/-- The empty field after a 4-byte reference -/
theorem bfField_none {S : OverShift} (hS : S.Right) (e : Endian) (P : BitVec 64) {m b : Nat} (hm : m < 64)
    (hb0 : 0 < b) (hb : b ≤ 64) (ow : BitVec 64) {p : ODecomp} (herr : p.errorcode = none) :
    bfField S e P 0 0 0 (m, ow, b) p = .ok (m, ow, b) p := by
  obtain ⟨o, ho⟩ := S.r_all hS (BitVec.allOnes 64) (k := 64 - ((0 : Nat) : Int)) (m := 64) rfl (by omega)
  obtain ⟨y, hy⟩ := S.r_all hS (swapBe64 e 0#64) (k := (64 : Int) - ((0 <<< 3 : Nat) : Int)) (m := 64) rfl (by omega)
  unfold bfField
  rw [M.access_bind_some (g := fun _ : ODecomp => S.r (BitVec.allOnes 64) (64 - ((0 : Nat) : Int))) ho]
  rw [M.access_bind_some (g := fun _ : ODecomp => S.r P ((m : Nat) - ((0 : Nat) : Int)))
    (S.r_some (m := m) (by omega) hm)]
  simp only [if_true, ne_eq, not_true_eq_false, if_false, M.pure_bind_apply]
  rw [M.bind_ok (checkError_none herr)]
  rw [M.access_bind_some (g := fun p : ODecomp => readBytes p.buf (0 * 0) (0 * 0)) (a := []) (by
    simp [readBytes])]
  rw [M.access_bind_some (g := fun _ : ODecomp => load64 e ([] ++ (wordBytes64 e 0#64).drop (0 * 0)) 0)
    (load64_self e 0#64)]
  rw [M.access_bind_some (g := fun _ : ODecomp => S.r (swapBe64 e 0#64) ((64 : Int) - ((0 <<< 3 : Nat) : Int))) hy]
  rw [show y * BitVec.ofNat 64 0 ||| (P >>> m &&& (0#64 &&& o)) = 0#64 from by simp]
  rw [M.access_bind_some (g := fun _ : ODecomp => S.l 0#64 ((64 : Int) - ((0 <<< 3 : Nat) : Int) - (b : Int)))
    (S.l_some (m := 64 - b) (by
      have : (0 <<< 3 : Nat) = 0 := rfl
      rw [this]; omega) (by omega))]
  simp

/-- An index field -/
theorem bfField_index {S : OverShift} (e : Endian) (P : BitVec 64) {n m : Nat} (hn : n = 2 ∨ n = 4)
    (hm : m < 64) {ow : BitVec 64} {bs : List Byte} (hacc : Acc ow bs) (hl : bs.length + n ≤ 8)
    {p : ODecomp} (herr : p.errorcode = none) (h8 : p.out % 8 = 0) (hol : p.out ≤ p.buf.length) :
    ∃ v, v < 2 ^ indexBits n ∧
      bitsOf (indexBits n + m) P.toNat = bitsOf (indexBits n) v ++ bitsOf m P.toNat ∧
      if indexOffset v n (ringSize n) p.out + n > p.out then
        ∃ p', bfField S e P 1 n (indexBits n) (indexBits n + m, ow, 8 * bs.length) p = .err .EINVAL p'
      else ∃ ow', Acc ow' (bs ++ (p.buf.drop (indexOffset v n (ringSize n) p.out)).take n) ∧
        bfField S e P 1 n (indexBits n) (indexBits n + m, ow, 8 * bs.length) p =
          .ok (m, ow', 8 * (bs ++ (p.buf.drop (indexOffset v n (ringSize n) p.out)).take n).length) p := by
  have hib := indexBits_bounds n
  obtain ⟨hv, hb⟩ := oclValue_spec P (w := indexBits n) (m := m) hib.1 hib.2 hm
  obtain ⟨hs1, hs2, hval⟩ := bf_value S P (w := indexBits n) (m := m) hib.1 hib.2 hm
  refine ⟨(oclValue P (indexBits n + m) (indexBits n)).toNat, hv, hb, ?_⟩
  have hfs : oclFifoSize n = ringSize n := by rcases hn with rfl | rfl <;> rfl
  have hrd : roundDown p.out 8 = p.out := by unfold roundDown; omega
  have hfield : ∀ l : Nat × BitVec 64 × Nat, l.1 = indexBits n + m →
      bfField S e P 1 n (indexBits n) l p = (do
        let offset ← bfGetIndex n (oclValue P (indexBits n + m) (indexBits n)).toNat (ringSize n)
        checkError
        let bs ← M.access fun p => readBytes p.buf (offset * 1) (n * 1)
        let y ← M.access fun _ => load64 e (bs ++ (wordBytes64 e
          (oclValue P (indexBits n + m) (indexBits n))).drop (n * 1)) 0
        let y ← M.access fun _ => S.r (swapBe64 e y) ((64 : Int) - ((n <<< 3 : Nat) : Int))
        let x := y * BitVec.ofNat 64 1 ||| 0#64
        let x ← M.access fun _ => S.l x ((64 : Int) - ((n <<< 3 : Nat) : Int) - ((l.2.2 : Nat) : Int))
        pure (l.1 - indexBits n, l.2.1 ||| x, l.2.2 + n <<< 3)) p := by
    intro l hl
    unfold bfField
    rw [hl]
    rw [M.access_bind_some (g := fun _ : ODecomp => S.r (BitVec.allOnes 64) (64 - ((indexBits n : Nat) : Int))) hs1]
    rw [M.access_bind_some (g := fun _ : ODecomp => S.r P ((indexBits n + m : Nat) - ((indexBits n : Nat) : Int))) hs2]
    simp only [hval, one_ne_zero, if_false, ne_eq, not_false_eq_true, if_true, hfs]
  rw [hfield _ rfl]
  generalize oclValue P (indexBits n + m) (indexBits n) = v at *
  unfold bfGetIndex
  rw [M.bind_assoc', M.get_bind_apply]
  simp only [hrd]
  generalize indexOffset v.toNat n (ringSize n) p.out = o at *
  by_cases hoff : o + n > p.out
  · rw [if_pos hoff, if_pos hoff]
    exact ⟨_, rfl⟩
  · rw [if_neg hoff, if_neg hoff, M.pure_bind_apply, M.bind_ok (checkError_none herr)]
    have hlen : ((p.buf.drop o).take n).length = n := by simp; omega
    rw [M.access_bind_some (g := fun p : ODecomp => readBytes p.buf (o * 1) (n * 1))
      (a := (p.buf.drop o).take n) (by rw [Nat.mul_one, Nat.mul_one, readBytes_ok (by omega)])]
    obtain ⟨w, hw1, hw2⟩ := bf_ref e hn hlen v
    rw [M.access_bind_some (g := fun _ : ODecomp => load64 e ((p.buf.drop o).take n ++
      (wordBytes64 e v).drop (n * 1)) 0) (by rw [Nat.mul_one]; exact hw1)]
    have hsh : n <<< 3 = 8 * n := by rw [Nat.shiftLeft_eq]; omega
    rw [hsh, M.access_bind_some (g := fun _ : ODecomp => S.r (swapBe64 e w) ((64 : Int) - ((8 * n : Nat) : Int)))
      (S.r_some (m := 64 - 8 * n) (by omega) (by rcases hn with rfl | rfl <;> omega))]
    generalize swapBe64 e w >>> (64 - 8 * n) = u at *
    rw [show u * BitVec.ofNat 64 1 ||| 0#64 = u from by simp]
    refine ⟨_, hacc.step (v := u) (new := (p.buf.drop o).take n) (by omega)
        (by intro h; rw [h] at hlen; rcases hn with rfl | rfl <;> simp at hlen) hw2, ?_⟩
    rw [M.access_bind_some (g := fun _ : ODecomp => S.l u ((64 : Int) - ((8 * n : Nat) : Int) - ((8 * bs.length : Nat) : Int)))
      (S.l_some (m := 64 - 8 * n - 8 * bs.length) (by omega) (by rcases hn with rfl | rfl <;> omega))]
    simp only [M.pure_apply, hlen, Nat.add_sub_cancel_left, List.length_append, Nat.mul_add]

/-! ## A whole template -/

/-- Both decoders on the remaining fields of a template, `bs` being the bytes produced so far -/
def RowSim (S : OverShift) (e : Endian) (P : BitVec 64) (fs : List (Nat × Nat × Nat)) (steps : List OptStep)
    (size m : Nat) (ow : BitVec 64) (bs : List Byte) (p : ODecomp) : Prop :=
  (∃ bs' ow', bs'.length = size ∧ Acc ow' (bs ++ bs') ∧
    bfFields S e P fs (m, ow, 8 * bs.length) p = .ok (0, ow', 8 * (bs ++ bs').length) p ∧
    optSteps e P steps (oafter p bs) = .ok () (oafter p (bs ++ bs'))) ∨
  (∃ q p', bfFields S e P fs (m, ow, 8 * bs.length) p = .err .EINVAL q ∧
    optSteps e P steps (oafter p bs) = .ok () p' ∧ p'.errorcode = some .EINVAL)

theorem RowSim.step {S : OverShift} {e : Endian} {P : BitVec 64} {fs fs0 : List (Nat × Nat × Nat)}
    {steps : List OptStep} {st : OptStep} {size n m m0 : Nat} {ow ow0 : BitVec 64} {bs new : List Byte}
    {p : ODecomp} (hn : new.length = n)
    (hf : bfFields S e P fs0 (m0, ow0, 8 * bs.length) p = bfFields S e P fs (m, ow, 8 * (bs ++ new).length) p)
    (hs : optStep e P st (oafter p bs) = .ok () (oafter p (bs ++ new)))
    (h : RowSim S e P fs steps size m ow (bs ++ new) p) :
    RowSim S e P fs0 (st :: steps) (n + size) m0 ow0 bs p := by
  rcases h with ⟨bs', ow', h1, h2, h3, h4⟩ | ⟨q, p', h1, h2, h3⟩
  · refine .inl ⟨new ++ bs', ow', by simp [hn, h1], ?_, ?_, ?_⟩
    · rw [← List.append_assoc]; exact h2
    · rw [hf, h3, List.append_assoc]
    · rw [optSteps, M.bind_ok hs, h4, List.append_assoc]
  · refine .inr ⟨q, p', ?_, ?_, h3⟩
    · rw [hf, h1]
    · rw [optSteps, M.bind_ok hs, h2]

theorem optStep_data (e : Endian) (P : BitVec 64) {n m : Nat} (hn : SizeOk n) (hm : m < 64) {new : List Byte}
    (hl : new.length = n) (hb : bitsOf (n * 8 + m) P.toNat = bytesBits new ++ bitsOf m P.toNat)
    {p : ODecomp} {bs : List Byte} (hsp : p.out + bs.length + n ≤ p.buf.length) :
    optStep e P (.data n m (n * 8)) (oafter p bs) = .ok () (oafter p (bs ++ new)) := by
  obtain ⟨v, hf, hv, hb'⟩ := field_spec P hm hn.bits_le
  obtain ⟨bs', hl', hbb, hem⟩ := odoData_emit e hn hv
  have : bs' = new := by
    apply bytesBits_inj
    rw [hb] at hb'
    rw [hbb]
    exact (List.append_inj hb' (by simp [hl, Nat.mul_comm])).1.symm
  subst this
  rw [optStep, M.access_bind_some (g := fun _ : ODecomp => field P m (n * 8)) hf, hem]
  exact oemit_after (by omega)

theorem bfFields_cons {S : OverShift} {e : Endian} {P : BitVec 64} {a b c : Nat} {fs : List (Nat × Nat × Nat)}
    {l l' : Nat × BitVec 64 × Nat} {p : ODecomp} (h : bfField S e P a b c l p = .ok l' p) :
    bfFields S e P ((a, b, c) :: fs) l p = bfFields S e P fs l' p := by
  rw [bfFields]
  exact M.bind_ok h

theorem bfRow {S : OverShift} (hS : S.Right) (e : Endian) (P : BitVec 64) {acts : List Action}
    {fs : List (Nat × Nat × Nat)} {m : Nat} (h : ORow acts fs m) :
    ∀ {steps : List OptStep} {m' : Nat}, RowOk acts steps m' → m' = m → ∀ {p : ODecomp} {ow : BitVec 64}
      {bs : List Byte}, p.OInv → p.errorcode = none → p.out % 8 = 0 → Acc ow bs →
      bs.length + actionsSize acts = 8 → p.out + 8 ≤ p.buf.length →
      RowSim S e P fs steps (actionsSize acts) m ow bs p := by
  induction h with
  | nil =>
    intro steps m' h' hm p ow bs hp herr h8 hacc hsz hsp
    cases h'
    refine .inl ⟨[], ow, rfl, by simpa using hacc, ?_, ?_⟩
    · rw [List.append_nil]; rfl
    · rw [List.append_nil]; rfl
  | @d2 acts fs m hr hm ih =>
    intro steps m' h' hmm p ow bs hp herr h8 hacc hsz hsp
    cases h' with
    | @data _ m1 _ steps hn h1 hm1 =>
      obtain rfl : m1 = m := by omega
      have hsz' : actionsSize (.D 2 :: acts) = 2 + actionsSize acts := by simp [actionsSize, actionSize]
      rw [hsz'] at hsz ⊢
      obtain ⟨ow1, new, hl, hacc1, hb, hf⟩ := bfField_data hS e P hm hacc (by omega) herr
      refine RowSim.step hl (bfFields_cons hf) (optStep_data e P hn hm hl hb (by omega)) ?_
      exact ih h1 rfl hp herr h8 hacc1 (by rw [List.length_append]; omega) hsp
  | @d4 acts fs m hr hm ih =>
    intro steps m' h' hmm p ow bs hp herr h8 hacc hsz hsp
    cases h' with
    | @data _ m1 _ steps hn h1 hm1 =>
      obtain rfl : m1 = m := by omega
      have hsz' : actionsSize (.D 4 :: acts) = 4 + actionsSize acts := by simp [actionsSize, actionSize]
      rw [hsz'] at hsz ⊢
      obtain ⟨ow1, n1, hl1, hacc1, hb1, hf1⟩ := bfField_data hS e P (m := 16 + m1) (by omega) hacc (by omega) herr
      obtain ⟨ow2, n2, hl2, hacc2, hb2, hf2⟩ := bfField_data hS e P (m := m1) (by omega) hacc1
        (by rw [List.length_append]; omega) herr
      rw [List.append_assoc] at hacc2 hf2
      refine RowSim.step (new := n1 ++ n2) (by simp [hl1, hl2])
        ((bfFields_cons hf1).trans (bfFields_cons hf2))
        (optStep_data e P hn hm1 (by simp [hl1, hl2]) ?_ (by omega)) ?_
      · rw [show 4 * 8 + m1 = 16 + (16 + m1) by omega, hb1, hb2, bytesBits_append, List.append_assoc]
      · exact ih h1 rfl hp herr h8 hacc2 (by simp only [List.length_append]; omega) hsp
  | @d8 acts fs m hr hm ih =>
    intro steps m' h' hmm p ow bs hp herr h8 hacc hsz hsp
    cases h' with
    | @data _ m1 _ steps hn h1 hm1 =>
      obtain rfl : m1 = m := by omega
      have hsz' : actionsSize (.D 8 :: acts) = 8 + actionsSize acts := by simp [actionsSize, actionSize]
      rw [hsz'] at hsz ⊢
      obtain ⟨ow1, n1, hl1, hacc1, hb1, hf1⟩ := bfField_data hS e P (m := 16 + (16 + (16 + m1))) (by omega)
        hacc (by omega) herr
      obtain ⟨ow2, n2, hl2, hacc2, hb2, hf2⟩ := bfField_data hS e P (m := 16 + (16 + m1)) (by omega) hacc1
        (by simp only [List.length_append]; omega) herr
      obtain ⟨ow3, n3, hl3, hacc3, hb3, hf3⟩ := bfField_data hS e P (m := 16 + m1) (by omega) hacc2
        (by simp only [List.length_append]; omega) herr
      obtain ⟨ow4, n4, hl4, hacc4, hb4, hf4⟩ := bfField_data hS e P (m := m1) (by omega) hacc3
        (by simp only [List.length_append]; omega) herr
      simp only [List.append_assoc] at hacc4 hf4 hf3 hf2
      refine RowSim.step (new := n1 ++ (n2 ++ (n3 ++ n4))) (by simp [hl1, hl2, hl3, hl4])
        ((bfFields_cons hf1).trans ((bfFields_cons hf2).trans ((bfFields_cons hf3).trans (bfFields_cons hf4))))
        (optStep_data e P hn hm1 (by simp [hl1, hl2, hl3, hl4]) ?_ (by omega)) ?_
      · rw [show 8 * 8 + m1 = 16 + (16 + (16 + (16 + m1))) by omega, hb1, hb2, hb3, hb4]
        simp only [bytesBits_append, List.append_assoc]
      · exact ih h1 rfl hp herr h8 hacc4 (by simp only [List.length_append]; omega) hsp
  | @i2 acts fs m hr hm ih =>
    intro steps m' h' hmm p ow bs hp herr h8 hacc hsz hsp
    cases h' with
    | @index _ m1 _ steps hn h1 hm1 =>
      obtain rfl : m1 = m := by
        have : indexBits 2 = 8 := rfl
        omega
      have hsz' : actionsSize (.I 2 :: acts) = 2 + actionsSize acts := by simp [actionsSize, actionSize]
      rw [hsz'] at hsz ⊢
      obtain ⟨v, hv, hb, hcase⟩ := bfField_index (S := S) e P (n := 2) (.inl rfl) hm hacc (by omega) herr h8 hp.out
      obtain ⟨v', hf', hv', hb'⟩ := field_spec P hm (indexBits_bounds 2).2
      obtain rfl : v'.toNat = v := by
        rw [hb] at hb'
        exact (bitsOf_inj (List.append_inj hb' (by simp)).1 hv hv').symm
      have hidx := odoIndex_after (n := 2) (i := v'.toNat) (fs := ringSize 2) h8 (bs := bs) (by omega) (p := p)
        (by omega)
      split at hcase
      · rename_i hbad
        obtain ⟨q, hq⟩ := hcase
        rw [if_pos hbad] at hidx
        obtain ⟨p', h2, h3⟩ := optSteps_after e P h1 (p := (oafter p bs).setError .EINVAL)
          (by
            have := oafter_inv hp (bs := bs) (by omega)
            rw [setError_eq]; exact ⟨this.ilen, this.olen, this.word, this.win, this.out⟩)
          (by
            rw [setError_eq]
            show p.out + bs.length + _ ≤ (oafter p bs).buf.length
            rw [oafter_length (by omega)]; omega)
          (er := .EINVAL) (by rw [setError_eq]; simp [oafter, herr])
        refine .inr ⟨q, p', ?_, ?_, h3⟩
        · rw [bfFields]; exact M.bind_err hq
        · rw [optSteps, optStep, M.bind_assoc', M.access_bind_some (g := fun _ : ODecomp => field P m1 (indexBits 2)) hf',
            M.bind_ok hidx, h2]
      · rename_i hok
        obtain ⟨ow1, hacc1, hf⟩ := hcase
        rw [if_neg hok] at hidx
        have hlen : ((p.buf.drop (indexOffset v'.toNat 2 (ringSize 2) p.out)).take 2).length = 2 := by
          rw [List.length_take, List.length_drop]; omega
        refine RowSim.step hlen (bfFields_cons hf) ?_
          (ih h1 rfl hp herr h8 hacc1 (by rw [List.length_append, hlen]; omega) hsp)
        rw [optStep, M.access_bind_some (g := fun _ : ODecomp => field P m1 (indexBits 2)) hf', hidx]
  | @i4 acts fs m hr hm ih =>
    intro steps m' h' hmm p ow bs hp herr h8 hacc hsz hsp
    cases h' with
    | @index _ m1 _ steps hn h1 hm1 =>
      obtain rfl : m1 = m := by
        have : indexBits 4 = 9 := rfl
        omega
      have hsz' : actionsSize (.I 4 :: acts) = 4 + actionsSize acts := by simp [actionsSize, actionSize]
      rw [hsz'] at hsz ⊢
      obtain ⟨v, hv, hb, hcase⟩ := bfField_index (S := S) e P (n := 4) (.inr rfl) hm hacc (by omega) herr h8 hp.out
      obtain ⟨v', hf', hv', hb'⟩ := field_spec P hm (indexBits_bounds 4).2
      obtain rfl : v'.toNat = v := by
        rw [hb] at hb'
        exact (bitsOf_inj (List.append_inj hb' (by simp)).1 hv hv').symm
      have hidx := odoIndex_after (n := 4) (i := v'.toNat) (fs := ringSize 4) h8 (bs := bs) (by omega) (p := p)
        (by omega)
      split at hcase
      · rename_i hbad
        obtain ⟨q, hq⟩ := hcase
        rw [if_pos hbad] at hidx
        obtain ⟨p', h2, h3⟩ := optSteps_after e P h1 (p := (oafter p bs).setError .EINVAL)
          (by
            have := oafter_inv hp (bs := bs) (by omega)
            rw [setError_eq]; exact ⟨this.ilen, this.olen, this.word, this.win, this.out⟩)
          (by
            rw [setError_eq]
            show p.out + bs.length + _ ≤ (oafter p bs).buf.length
            rw [oafter_length (by omega)]; omega)
          (er := .EINVAL) (by rw [setError_eq]; simp [oafter, herr])
        refine .inr ⟨q, p', ?_, ?_, h3⟩
        · rw [bfFields]; exact M.bind_err hq
        · rw [optSteps, optStep, M.bind_assoc', M.access_bind_some (g := fun _ : ODecomp => field P m1 (indexBits 4)) hf',
            M.bind_ok hidx, h2]
      · rename_i hok
        obtain ⟨ow1, hacc1, hf⟩ := hcase
        rw [if_neg hok] at hidx
        have hlen : ((p.buf.drop (indexOffset v'.toNat 4 (ringSize 4) p.out)).take 4).length = 4 := by
          rw [List.length_take, List.length_drop]; have := hp.out; omega
        refine RowSim.step (fs := fs) (m := m1) (ow := ow1) hlen ?_ ?_
          (ih h1 rfl hp herr h8 hacc1 (by rw [List.length_append, hlen]; omega) hsp)
        · have hf2 := bfField_none hS e P (m := m1) (b := 8 * (bs ++ (p.buf.drop
              (indexOffset v'.toNat 4 (ringSize 4) p.out)).take 4).length) hm
            (by rw [List.length_append, hlen]; omega) (by rw [List.length_append, hlen]; omega) ow1 herr
          exact (bfFields_cons hf).trans (bfFields_cons hf2)
        · rw [optStep, M.access_bind_some (g := fun _ : ODecomp => field P m1 (indexBits 4)) hf', hidx]

/-! ## One iteration -/

/-- The outcomes of the two decoders agree: same result and state, or same error. -/
def SameOutcome {α : Type} (x y : Outcome ODecomp α) : Prop :=
  x = y ∨ (∃ er p q, x = .err er p ∧ y = .err er q)

theorem SameOutcome.ok {α : Type} {x y : Outcome ODecomp α} (a : α) (p : ODecomp) (h1 : x = .ok a p)
    (h2 : y = .ok a p) : SameOutcome x y := .inl (h1.trans h2.symm)

theorem optBits_eq : ∀ c, c < 25 → (optSwitch[c]?).map Prod.fst = some (oclOpbits c) := by
  decide

/-- An op followed by the check of the error code -/
theorem bfOp_same {S : OverShift} (hS : S.Right) (e : Endian) {op : Nat} {p : ODecomp} (hp : p.OInv)
    (herr : p.errorcode = none) (h8 : p.out % 8 = 0)
    (hsp : op < 0x1a ∨ op = 0x1C → p.out + 8 ≤ p.olen) :
    SameOutcome ((do bfOp S e op; checkError; pure false) p) ((do odoOp e op; checkError; pure false) p) := by
  have hol := hp.olen
  by_cases hc : op < 25
  · obtain ⟨acts, ht, hrow, hsz, hn1, hn⟩ := oclRow_ok op hc
    obtain ⟨acts', n, steps, ht', ho, hrow', hsz', -, -⟩ := optSwitch_ok op (by omega)
    obtain rfl : acts' = acts := by rw [ht] at ht'; exact (Option.some.inj ht').symm
    obtain rfl : n = oclOpbits op := by
      have := optBits_eq op hc
      rw [ho] at this
      exact Option.some.inj this
    have hfit := hsp (.inl (by omega))
    unfold odoOp bfOp bfDoOp
    rw [ho, if_neg (by omega), if_neg (by omega), if_neg (by omega), if_neg (by omega)]
    simp only
    obtain ⟨P, p1, h1, hi1, hs1, hcase⟩ := readBits_spec e hn1 hn hp
    have hb1 := hs1.buf
    have ho1 := hs1.out
    rw [M.bind_assoc', M.bind_assoc', M.bind_ok h1, M.bind_ok h1]
    rcases hcase with ⟨-, -, he⟩ | ⟨-, hne, -⟩
    · have herr1 := he.trans herr
      rw [M.bind_assoc', M.bind_ok (checkError_none herr1), M.bind_assoc']
      have hrs := bfRow hS e P hrow hrow' rfl hi1 herr1 (by omega) Acc.nil (by rw [hsz]; rfl)
        (by rw [hb1, ho1]; omega)
      rcases hrs with ⟨bs', ow', hl, hacc, hf, hs⟩ | ⟨q, p', hf, hs, he'⟩
      · rw [List.nil_append] at hacc hf hs
        rw [oafter_nil] at hs
        refine .ok false (oafter p1 bs') ?_ ?_
        · have hf' : bfFields S e P (oclRow op) (oclOpbits op, 0#64, 0) p1 = _ := hf
          rw [M.bind_ok hf', M.bind_assoc', M.get_bind_apply]
          have hol1 := hi1.olen
          rw [if_neg (by rw [hol1, hb1, ho1]; omega), hacc.bytes (by rw [hl, hsz]) e]
          have hem := oemit_after (p := p1) (bs := []) (new := bs') (by
            rw [hl, hsz, hb1, ho1]; show p.out + 0 + 8 ≤ _; omega)
          rw [oafter_nil, List.nil_append] at hem
          rw [M.bind_ok hem, M.bind_ok (checkError_none (p := oafter p1 bs') herr1)]
          rfl
        · rw [M.bind_ok hs, M.bind_ok (checkError_none (p := oafter p1 bs') herr1)]
          rfl
      · rw [oafter_nil] at hs
        refine .inr ⟨.EINVAL, q, p', ?_, ?_⟩
        · exact M.bind_err hf
        · rw [M.bind_ok hs]
          refine M.bind_err ?_
          unfold checkError
          rw [M.get_bind_apply, he']
          rfl
    · cases hx : p1.errorcode with
      | none => exact absurd hx hne
      | some er =>
        have hck : ∀ {q : ODecomp}, q.errorcode = some er → checkError q = .err er q := by
          intro q hq
          unfold checkError
          rw [M.get_bind_apply, hq]
          rfl
        obtain ⟨p', h2, h3⟩ := optSteps_after e P hrow' hi1 (by rw [hsz, hb1, ho1]; omega) hx
        refine .inr ⟨er, p1, p', ?_, ?_⟩
        · rw [M.bind_assoc', M.bind_err (hck hx)]
        · rw [M.bind_ok h2, M.bind_err (hck h3)]
  by_cases hc25 : op = 25
  · subst hc25
    have hfit := hsp (.inl (by omega))
    unfold odoOp bfOp
    rw [if_neg (by omega), if_neg (by omega), if_pos rfl]
    rw [show optSwitch[25]? = some (8, [OptStep.index 8 0 8 2048]) from rfl]
    simp only
    obtain ⟨P, p1, h1, hi1, hs1, hcase⟩ := readBits_spec e (n := 8) (by omega) (by omega) hp
    have hb1 := hs1.buf
    have ho1 := hs1.out
    have hol1 := hi1.olen
    rw [M.bind_assoc', M.bind_assoc', M.bind_ok h1, M.bind_ok h1, M.bind_assoc']
    obtain ⟨v, hf, hv, hb⟩ := field_spec P (m := 0) (w := 8) (by omega) (by omega)
    have hstd : ∀ q : ODecomp, optSteps e P [OptStep.index 8 0 8 2048] q = odoIndex 8 v.toNat 2048 q := by
      intro q
      rw [optSteps, optStep, M.bind_assoc', M.access_bind_some (g := fun _ : ODecomp => field P 0 8) hf,
        M.bind_def]
      cases odoIndex 8 v.toNat 2048 q <;> rfl
    have hrd : roundDown p1.out 8 = p1.out := by unfold roundDown; omega
    rcases hcase with ⟨hP, -, he⟩ | ⟨-, hne, -⟩
    · have herr1 := he.trans herr
      have hPv : v.toNat = P.toNat := by
        have hb' : bitsOf 8 P.toNat = bitsOf 8 v.toNat := by simpa [bitsOf] using hb
        exact (bitsOf_inj hb' hP hv).symm
      rw [M.bind_ok (checkError_none herr1)]
      have hidx := odoIndex_after (n := 8) (i := P.toNat) (fs := 2048) (p := p1) (bs := []) (by omega)
        (by show 0 < 8; omega) (by rw [hb1, ho1]; show p.out + 0 + 8 ≤ _; omega)
      rw [oafter_nil, List.nil_append] at hidx
      have hstd1 : (optSteps e P [OptStep.index 8 0 8 2048] >>= fun _ => do checkError; pure false) p1 =
          (odoIndex 8 P.toNat 2048 >>= fun _ => do checkError; pure false) p1 := by
        rw [M.bind_def, M.bind_def, hstd p1, hPv]
      rw [hstd1]
      unfold bfGetIndex
      rw [M.bind_assoc', M.bind_assoc', M.get_bind_apply]
      simp only [hrd]
      have hout1 := hi1.out
      generalize indexOffset P.toNat 8 2048 p1.out = o at *
      by_cases hoff : o + 8 > p1.out
      · rw [if_pos hoff] at hidx ⊢
        refine .inr ⟨.EINVAL, { p1 with errorcode := some .EINVAL }, p1.setError .EINVAL, ?_, ?_⟩
        · rfl
        · rw [M.bind_ok hidx]
          refine M.bind_err ?_
          rw [setError_eq]
          unfold checkError
          rw [M.get_bind_apply]
          simp only [herr1]
          rfl
      · rw [if_neg hoff] at hidx ⊢
        refine .ok false (oafter p1 ((p1.buf.drop o).take 8)) ?_ ?_
        · rw [M.pure_bind_apply, M.bind_assoc', M.bind_ok (checkError_none herr1), M.bind_assoc']
          rw [M.access_bind_some (g := fun p : ODecomp => readBytes p.buf o 8) (readBytes_ok (by omega))]
          have hem := oemit_after (p := p1) (bs := []) (new := (p1.buf.drop o).take 8) (by
            rw [List.length_take, List.length_drop, hb1, ho1]
            show p.out + 0 + _ ≤ _
            omega)
          rw [oafter_nil, List.nil_append] at hem
          rw [M.bind_ok hem,
            M.bind_ok (checkError_none (p := oafter p1 ((p1.buf.drop o).take 8)) herr1)]
          rfl
        · rw [M.bind_ok hidx,
            M.bind_ok (checkError_none (p := oafter p1 ((p1.buf.drop o).take 8)) herr1)]
          rfl
    · cases hx : p1.errorcode with
      | none => exact absurd hx hne
      | some er =>
        have hck : ∀ {q : ODecomp}, q.errorcode = some er → checkError q = .err er q := by
          intro q hq
          unfold checkError
          rw [M.get_bind_apply, hq]
          rfl
        obtain ⟨p', h2, -⟩ := odoIndex_spec (n := 8) (i := v.toNat) (.inr (.inr rfl)) hv hi1
          (by rw [hb1, ho1]; omega)
        have h2' : odoIndex 8 v.toNat 2048 p1 = .ok () p' := h2
        refine .inr ⟨er, p1, p', ?_, ?_⟩
        · exact M.bind_err (hck hx)
        · rw [M.bind_ok ((hstd p1).trans h2'), M.bind_err (hck (odoIndex_keeps hx h2'))]
  · have heq : bfOp S e op = odoOp e op := by
      unfold bfOp odoOp
      rw [optSwitch_none (by omega)]
      simp only
      split
      · rfl
      split
      · rfl
      unfold bfDoOp
      rw [if_pos (by omega)]
    rw [heq]
    exact .inl rfl

theorem bfIter_same {S : OverShift} (hS : S.Right) (e : Endian) {p : ODecomp} (hp : optView.Inv p) :
    SameOutcome (bfIter S e p) (optIter e p) := by
  obtain ⟨hp, herr, h8⟩ := hp
  unfold bfIter optIter
  obtain ⟨v, p1, h1, hi1, hs1, hcase⟩ := readBits_spec e (n := 5) (by omega) (by omega) hp
  rw [M.bind_ok h1, M.bind_ok h1]
  rcases hcase with ⟨hv, hr, he⟩ | ⟨_, hne, _⟩
  swap
  · obtain ⟨er, hc⟩ := checkError_ne hne
    rw [M.bind_err hc, M.bind_err hc]
    exact .inl rfl
  have herr1 : p1.errorcode = none := he.trans herr
  rw [M.bind_ok (checkError_none herr1), M.get_bind_apply, M.bind_ok (checkError_none herr1), M.get_bind_apply]
  by_cases hsp : (v.toNat < 0x1a ∨ v.toNat = 0x1C) ∧ p1.out + 8 > p1.olen
  · rw [if_pos hsp, if_pos hsp]; exact .inl rfl
  rw [if_neg hsp, if_neg hsp]
  by_cases hend : v.toNat = 0x1E
  · rw [if_pos hend, if_pos hend]; exact .inl rfl
  rw [if_neg hend, if_neg hend]
  exact bfOp_same hS e hi1 herr1 (by rw [hs1.out]; exact h8) (by intro h; omega)

theorem bfLoop_same {S : OverShift} (hS : S.Right) (e : Endian) (fuel : Nat) {p : ODecomp}
    (hp : optView.Inv p) : SameOutcome (M.doWhile (bfIter S e) fuel p) (M.doWhile (optIter e) fuel p) := by
  induction fuel generalizing p with
  | zero => exact .inl rfl
  | succ fuel ih =>
    rw [M.doWhile, M.doWhile]
    have hres := optIter_sound e hp
    rcases bfIter_same hS e hp with h | ⟨er, q, q', h1, h2⟩
    · generalize hx : optIter e p = x at *
      cases hres with
      | fin hi _ _ _ =>
        rw [M.bind_ok h, M.bind_ok hx]; exact .inl rfl
      | op hi _ _ _ _ _ =>
        rw [M.bind_ok h, M.bind_ok hx]; exact ih hi
      | err _ =>
        rw [M.bind_err h, M.bind_err hx]; exact .inl rfl
    · rw [M.bind_err h1, M.bind_err h2]
      exact .inr ⟨er, q, q', rfl, rfl⟩

theorem bfBody_same {S : OverShift} (hS : S.Right) (e : Endian) (aout fuel : Nat) {p : ODecomp}
    (hp : optView.Inv p) : SameOutcome (bfBody S e aout fuel p) (optBody e aout fuel p) := by
  unfold bfBody optBody
  rcases bfLoop_same hS e fuel hp with h | ⟨er, q, q', h1, h2⟩
  · rw [M.bind_def, M.bind_def, h]; exact .inl rfl
  · rw [M.bind_err h1, M.bind_err h2]
    exact .inr ⟨er, q, q', rfl, rfl⟩

/-! ## The branch-free compressor -/

/-- Shifting zero left by 64 gives zero. -/
def OverShift.Left (S : OverShift) : Prop := S.shl 0#64 64 = some 0#64

theorem bfParams_ok {S : OverShift} (hS : S.Left) {dai : Nat → BitVec 64} (ops : List (Nat × Nat))
    (hops : ∀ o ∈ ops, o.1 < 16 ∧ o.2 ≤ 64 ∧ (dai o.1).toNat < 2 ^ o.2) {pw : BitVec 64} {tot : Nat}
    (hpw : pw.toNat < 2 ^ tot) (hsum : tot + (ops.map Prod.snd).sum ≤ 64) :
    ∃ v, bfParams S dai ops pw tot = some (v, tot + (ops.map Prod.snd).sum) ∧
      v.toNat < 2 ^ (tot + (ops.map Prod.snd).sum) ∧
      bitsOf (tot + (ops.map Prod.snd).sum) v.toNat =
        bitsOf tot pw.toNat ++ ops.flatMap fun o => bitsOf o.2 (dai o.1).toNat := by
  induction ops generalizing pw tot with
  | nil => exact ⟨pw, rfl, hpw, by simp⟩
  | cons o ops ih =>
    obtain ⟨src, w⟩ := o
    obtain ⟨h16, hw, hv⟩ := hops _ (List.mem_cons_self ..)
    simp only [List.map_cons, List.sum_cons] at hsum ⊢
    simp only at h16 hw hv
    have hor : ∃ u, S.l pw w = some u ∧ (u ||| dai src).toNat = pw.toNat * 2 ^ w + (dai src).toNat := by
      by_cases hw64 : w = 64
      · subst hw64
        obtain rfl : tot = 0 := by omega
        have h0 : pw = 0#64 := by
          apply BitVec.eq_of_toNat_eq
          have : pw.toNat = 0 := by omega
          rw [this]; rfl
        subst h0
        exact ⟨0#64, by unfold OverShift.l; simpa [cshl] using (show S.shl 0#64 64 = some 0#64 from hS), by simp⟩
      · refine ⟨pw <<< w, S.l_some rfl (by omega), ?_⟩
        have hshl : (pw <<< w).toNat = pw.toNat * 2 ^ w := by
          rw [BitVec.toNat_shiftLeft, Nat.shiftLeft_eq, Nat.mod_eq_of_lt]
          calc pw.toNat * 2 ^ w < 2 ^ tot * 2 ^ w := Nat.mul_lt_mul_of_pos_right hpw (Nat.two_pow_pos _)
            _ = 2 ^ (tot + w) := by rw [Nat.pow_add]
            _ ≤ 2 ^ 64 := Nat.pow_le_pow_right (by omega) (by omega)
        rw [BitVec.toNat_or, hshl, Nat.mul_comm, Nat.two_pow_add_eq_or_of_lt hv]
    obtain ⟨u, hu, hor⟩ := hor
    have hlt : (u ||| dai src).toNat < 2 ^ (tot + w) := by
      rw [hor, Nat.pow_add]
      calc pw.toNat * 2 ^ w + (dai src).toNat < pw.toNat * 2 ^ w + 2 ^ w := by omega
        _ = (pw.toNat + 1) * 2 ^ w := by rw [Nat.succ_mul]
        _ ≤ 2 ^ tot * 2 ^ w := Nat.mul_le_mul_right _ hpw
    obtain ⟨v, h1, h2, h3⟩ := ih (fun o ho => hops o (List.mem_cons_of_mem _ ho)) hlt (by omega)
    rw [show tot + (w + (ops.map Prod.snd).sum) = tot + w + (ops.map Prod.snd).sum by omega]
    refine ⟨v, ?_, h2, ?_⟩
    · rw [bfParams, hu]
      have hg : arrGet 16 dai src = some (dai src) := by unfold arrGet; rw [if_pos h16]
      simp only [Option.bind_eq_bind, Option.bind_some, hg]
      rw [Nat.mod_eq_of_lt (by omega), h1]
    · rw [h3, List.flatMap_cons, ← List.append_assoc]
      congr 1
      rw [bitsOf_append, hor]
      congr 1
      · rw [Nat.shiftRight_eq_div_pow, Nat.mul_comm, Nat.mul_add_div (Nat.two_pow_pos _),
          Nat.div_eq_of_lt hv, Nat.add_zero]
      · rw [← bitsOf_mod, Nat.mul_comm, Nat.mul_add_mod, bitsOf_mod]

/-- Where an operand of the default configuration is found -/
def srcIdx : OptSrc → Nat
  | .dai i => i
  | .mid => 14
  | .code => 15

theorem bfTemplates_ok : ∀ code, code < 26 → ∃ k, bfTemplates[code]? =
      some ((actSrcs (templates.getD code []) 0).map (fun s => (srcIdx s, srcWidth s)) ++
        List.replicate k (15, 0)) ∧
    5 + ((actSrcs (templates.getD code []) 0).map srcWidth).sum = templateBits (templates.getD code []) ∧
    templateBits (templates.getD code []) ≤ 69 := by
  intro code hc
  interval_cases code <;> first
    | exact ⟨0, rfl, rfl, by decide⟩
    | exact ⟨1, rfl, rfl, by decide⟩
    | exact ⟨2, rfl, rfl, by decide⟩
    | exact ⟨3, rfl, rfl, by decide⟩

/-- The two extra words of the branch-free compressor -/
def BfLoaded (c : OCore) (x : List Byte) (pos : Nat) : Prop :=
  c.dai 14 = dataAt x 4 (pos + 2) ∧ c.dai 15 = 0#64

theorem bfGetNextData_ok (e : Endian) {c : OCore} {T : OTab} {x : List Byte} {pos : Nat}
    (hpos : pos + 8 ≤ x.length) (hr : ORep c T x pos) :
    ∃ c', bfGetNextData e c = some c' ∧ ORep c' T x pos ∧ OLoaded c' x pos ∧ BfLoaded c' x pos := by
  obtain ⟨c1, h1, hr1, hl1⟩ := ogetNextData_ok e hpos hr
  obtain ⟨v, hv, hk⟩ := load32_key e (x := x) (o := pos + 2) (by omega)
  refine ⟨{ c1 with dai := upd (upd c1.dai 14 ((swapBe32 e v).setWidth 64)) 15 0#64 }, ?_,
    ⟨hr1.inp, hr1.ilen, hr1.hashes, hr1.ht16, hr1.ht32, hr1.ht64, hr1.hb, hr1.f16, hr1.f32, hr1.f64, hr1.pos⟩,
    ?_, ?_, rfl⟩
  · unfold bfGetNextData
    simp only [h1, Option.bind_eq_bind, Option.bind_some, hr1.inp, hr1.pos, hv]
  · intro k hk
    have := hl1 k hk
    show upd (upd c1.dai 14 _) 15 _ k = _
    rw [← this]
    unfold upd
    rw [if_neg (by omega), if_neg (by omega)]
  · show (swapBe32 e v).setWidth 64 = _
    rw [hk]
    rfl

theorem findSlot_dai {k : Nat} {c c' : OCore} (h : findSlot k c = some c') {i : Nat} (hi : i ≠ 7 + k) :
    c'.dai i = c.dai i := by
  unfold findSlot at h
  split at h
  · cases h
    show upd c.dai _ _ i = _
    unfold upd
    rw [if_neg hi]
  · cases h

theorem findIndex_dai {c c' : OCore} (h : findIndex c = some c') {i : Nat} (hi : 14 ≤ i) :
    c'.dai i = c.dai i := by
  unfold findIndex at h
  simp only [Option.bind_eq_bind, Option.bind_eq_some_iff] at h
  obtain ⟨c0, h0, c1, h1, c2, h2, c3, h3, c4, h4, c5, h5, h6⟩ := h
  rw [findSlot_dai h6 (by omega), findSlot_dai h5 (by omega), findSlot_dai h4 (by omega),
    findSlot_dai h3 (by omega), findSlot_dai h2 (by omega), findSlot_dai h1 (by omega),
    findSlot_dai h0 (by omega)]

theorem eval_idx (e : Endian) {c : OCore} {T : OTab} {x : List Byte} {pos code : Nat} (hc : code < 32)
    (h8 : pos % 8 = 0) (hpos : pos + 8 ≤ x.length) (hr : ORep c T x pos) (hl : OLoaded c x pos)
    (hb : BfLoaded c x pos) (hf : OFound 7 c T x pos) {s : OptSrc} (hs : srcOk s = true) (hne : s ≠ .code) :
    (srcIdx s < 16 ∧ srcWidth s ≤ 64 ∧ (c.dai (srcIdx s)).toNat < 2 ^ srcWidth s) ∧
      bitsOf (srcWidth s) (c.dai (srcIdx s)).toNat = srcBits T x pos code s := by
  have hw : srcWidth s ≤ 64 := by
    cases s with
    | dai i => simp only [srcWidth]; split_ifs <;> omega
    | _ => simp [srcWidth]
  cases s with
  | code => exact absurd rfl hne
  | mid =>
    have := key_setWidth_bits (n := 4) (by simp [SizeOk]) (x := x) (o := pos + 2) (by omega)
    have hd : c.dai (srcIdx .mid) = dataAt x 4 (pos + 2) := hb.1
    rw [hd]
    exact ⟨⟨by decide, by decide, this.1⟩, this.2⟩
  | dai i =>
    obtain ⟨v, h1, h2, h3⟩ := eval_src e hc h8 hpos hr hl hf hs
    simp only [srcOk, decide_eq_true_eq] at hs
    have hev : OptSrc.eval e code c (.dai i) = some (c.dai i) := by
      simp only [OptSrc.eval, arrGet]; rw [if_pos (by omega)]
    rw [hev] at h1
    obtain rfl := Option.some.inj h1
    exact ⟨⟨by show i < 16; omega, hw, h2⟩, h3⟩

theorem bfAddTemplate_ce {S : OverShift} (hS : S.Left) (e : Endian) {c : OCore} {T : OTab} {x : List Byte}
    {pos code : Nat} (hc : code < 26)
    (h8 : pos % 8 = 0) (hpos : pos + 8 ≤ x.length) (hr : ORep c T x pos) (hl : OLoaded c x pos)
    (hbl : BfLoaded c x pos) (hf : OFound 7 c T x pos) :
    CE e (bfAddTemplate S e code) c () c
      (Op.bits (.template code (T.args x pos (templates.getD code []) pos))) := by
  obtain ⟨-, -, hsum, -⟩ := templates_ok _ _ (getD_templates hc)
  obtain ⟨k, h1, h2, h3⟩ := bfTemplates_ok code hc
  obtain ⟨a1, a2⟩ := actSrcs_bits (T := T) (x := x) (pos := pos) (code := code)
    (srcOffsOk_templates code hc) (by omega)
  have hmem : ∀ o ∈ (actSrcs (templates.getD code []) 0).map (fun s => (srcIdx s, srcWidth s)) ++
      List.replicate k (15, 0), o.1 < 16 ∧ o.2 ≤ 64 ∧ (c.dai o.1).toNat < 2 ^ o.2 := by
    intro o ho
    rcases List.mem_append.1 ho with ho | ho
    · obtain ⟨s, hs, rfl⟩ := List.mem_map.1 ho
      exact (eval_idx e (code := code) (by omega) h8 hpos hr hl hbl hf (a1 s hs).1 (a1 s hs).2).1
    · obtain ⟨-, rfl⟩ := List.mem_replicate.1 ho
      refine ⟨by decide, by decide, ?_⟩
      show (c.dai 15).toNat < _
      rw [hbl.2]; decide
  have hsnd : (((actSrcs (templates.getD code []) 0).map (fun s => (srcIdx s, srcWidth s)) ++
      List.replicate k (15, 0)).map Prod.snd).sum = ((actSrcs (templates.getD code []) 0).map srcWidth).sum := by
    rw [List.map_append, List.sum_append, List.map_map, List.map_replicate]
    have : (List.replicate k 0).sum = 0 := by
      induction k with
      | zero => rfl
      | succ k ih => simp [List.replicate_succ]
    rw [this]
    rfl
  have hbits : ((actSrcs (templates.getD code []) 0).map (fun s => (srcIdx s, srcWidth s)) ++
      List.replicate k (15, 0)).flatMap (fun o : Nat × Nat => bitsOf o.2 (c.dai o.1).toNat) =
      (T.args x pos (templates.getD code []) pos).flatMap Arg.bits := by
    rw [List.flatMap_append, List.flatMap_map]
    have hz : (List.replicate k ((15, 0) : Nat × Nat)).flatMap (fun o => bitsOf o.2 (c.dai o.1).toNat) = [] := by
      rw [List.flatMap_eq_nil_iff]
      intro o ho
      obtain ⟨-, rfl⟩ := List.mem_replicate.1 ho
      rfl
    rw [Nat.add_zero] at a2
    rw [hz, List.append_nil, ← a2]
    rw [List.flatMap_def, List.flatMap_def]
    congr 1
    refine List.map_congr_left fun s hs => ?_
    exact (eval_idx e (code := code) (by omega) h8 hpos hr hl hbl hf (a1 s hs).1 (a1 s hs).2).2
  generalize hops : (actSrcs (templates.getD code []) 0).map (fun s => (srcIdx s, srcWidth s)) ++
      List.replicate k (15, 0) = ops at *
  obtain ⟨v, hv1, hv2, hv3⟩ := bfParams_ok hS ops hmem (pw := 0#64) (tot := 0) (by simp)
    (by rw [hsnd]; omega)
  rw [Nat.zero_add] at hv1 hv2 hv3
  have hpos' : 1 ≤ (ops.map Prod.snd).sum := by
    rw [hsnd]
    have : 1 ≤ ((actSrcs (templates.getD code []) 0).map srcWidth).sum := by
      clear hops hmem hbits hsnd hv1 hv2 hv3 a1 a2 h1 h2 h3 hsum hf hbl hl hr
      interval_cases code <;> decide
    exact this
  unfold bfAddTemplate
  have hcode : (BitVec.ofNat 64 code).toNat = code := by
    rw [BitVec.toNat_ofNat, Nat.mod_eq_of_lt (by omega)]
  refine (CE.writeBits (v := BitVec.ofNat 64 code) (n := 5) (by omega) (by omega) (by rw [hcode]; omega) c).seq
    (B' := bitsOf (ops.map Prod.snd).sum v.toNat) ?_ ?_
  · refine CE.get_bind' (g := fun c => do
      let r ← M.access fun _ => (bfTemplates[code]?).bind fun ops => bfParams S c.dai ops 0#64 0
      liftS (streamWriteBits e r.1 r.2)) (fun _ => rfl) ?_
    refine CE.access_bind (a := (v, (ops.map Prod.snd).sum)) (fun _ => by rw [h1]; exact hv1) ?_
    exact CE.writeBits hpos' (by omega) hv2 c
  · rw [hcode, hv3, hbits]
    rfl

theorem bfProcessNext_ce {S : OverShift} (hS : S.Left) (e : Endian) {c : OCore} {T : OTab} {x : List Byte} {pos : Nat}
    (h8 : pos % 8 = 0) (hpos : pos + 8 ≤ x.length) (hr : ORep c T x pos) (hl : OLoaded c x pos)
    (hb : BfLoaded c x pos) :
    ∃ c', CE e (bfProcessNext S e) c () c' (T.blockOp x pos).bits ∧ ORep c' (T.rehash x pos) x pos ∧
      OLoaded c' x pos := by
  obtain ⟨c3, e3, r3, l3, f3, hkeys⟩ := oprocessPrep h8 hr hl
  obtain ⟨-, hlt, -, -⟩ := codeOf_ok (T.valid x pos)
  have hb3 : BfLoaded c3 x pos :=
    ⟨(findIndex_dai e3 (by omega)).trans hb.1, (findIndex_dai e3 (by omega)).trans hb.2⟩
  refine ⟨c3, ?_, r3, l3⟩
  unfold bfProcessNext
  refine CE.liftC_bind (c1 := c.clear) rfl (CE.liftC_bind (c1 := hashAll c.clear) rfl (CE.liftC_bind (c1 := c3) e3 ?_))
  refine CE.get_bind' (g := fun c => do
    let templateKey ← M.access fun _ => getTemplate c.keys
    bfAddTemplate S e templateKey) (fun _ => rfl) ?_
  refine CE.access_bind (a := codeOf (T.valid x pos)) (fun _ => hkeys) ?_
  have h := bfAddTemplate_ce (T := T.rehash x pos) hS e hlt h8 hpos r3 l3 hb3 f3
  rw [OTab.args_rehash] at h
  exact h

theorem OConf.bf_ok {S : OverShift} (hS : S.Left) (e : Endian) : (OConf.bf S e).Ok e where
  step h8 hpos hr := by
    obtain ⟨c1, hg1, hr1, hl1, hb1⟩ := bfGetNextData_ok e hpos hr
    exact ⟨c1, hg1, hr1, hl1, bfProcessNext_ce hS e h8 hpos hr1 hl1 hb1⟩

end Lib842
