import Verif.Model.Ocl
import Verif.Proofs.DecStep
import Verif.Proofs.OptDecomp
/-!
# The OpenCL decoder against the format
-/

namespace Lib842
open Spec

/-! ## Values and references -/

theorem oclShr_eq {x : BitVec 64} {k : Int} {m : Nat} (hk : k = m) (hm : m < 64) : oclShr x k = x >>> m := by
  subst hk
  unfold oclShr
  congr 1
  omega

theorem oclShl_eq {x : BitVec 64} {k : Int} {m : Nat} (hk : k = m) (hm : m < 64) : oclShl x k = x <<< m := by
  subst hk
  unfold oclShl
  congr 1
  omega

theorem oclValue_zero (params : BitVec 64) (m : Nat) : oclValue params m 0 = 0#64 := by
  simp [oclValue]

theorem oclValue_spec (params : BitVec 64) {w m : Nat} (hw0 : 1 ≤ w) (hw : w ≤ 64) (hm : m < 64) :
    (oclValue params (w + m) w).toNat < 2 ^ w ∧
      bitsOf (w + m) params.toNat = bitsOf w (oclValue params (w + m) w).toNat ++ bitsOf m params.toNat := by
  obtain ⟨v, hf, hv, hb⟩ := field_spec params hm hw
  have : oclValue params (w + m) w = v := by
    unfold field at hf
    rw [cshr_some (m := m) rfl hm] at hf
    simp only [Option.map_some, Option.some.injEq] at hf
    rw [← hf]
    unfold oclValue
    rw [oclShr_eq (m := m) (by omega) hm, oclShr_eq (m := 64 - w) (by omega) (by omega),
      if_pos (by omega), BitVec.allOnes_and]
    congr 1
    apply BitVec.eq_of_toNat_eq
    rw [BitVec.toNat_ushiftRight, BitVec.toNat_allOnes, BitVec.toNat_ofNat, Nat.shiftRight_eq_div_pow]
    have h64 : 2 ^ 64 = 2 ^ w * 2 ^ (64 - w) := by rw [← Nat.pow_add]; congr 1; omega
    have hp := Nat.two_pow_pos w
    have hp2 := Nat.two_pow_pos (64 - w)
    have hle : 2 ^ w ≤ 2 ^ 64 := Nat.pow_le_pow_right (by omega) hw
    rw [Nat.mod_eq_of_lt (by omega), h64, Nat.div_eq_iff hp2]
    have e1 : (2 ^ w - 1) * 2 ^ (64 - w) = 2 ^ w * 2 ^ (64 - w) - 2 ^ (64 - w) := by
      rw [Nat.sub_mul, Nat.one_mul]
    have hge : 2 ^ (64 - w) ≤ 2 ^ w * 2 ^ (64 - w) := Nat.le_mul_of_pos_left _ hp
    constructor <;> omega
  rw [this]
  exact ⟨hv, hb⟩

theorem load16_none (e : Endian) {m : List Byte} {i : Nat} (h : ¬ i + 2 ≤ m.length) : load16 e m i = none := by
  unfold load16
  rw [readBytes_none h]

theorem toNat_of_bits {n x : Nat} {bs : List Byte} (h : bitsOf n x = bytesBits bs) (hx : x < 2 ^ n) :
    x = bitsVal (bytesBits bs) := eq_bitsVal h hx

/-- The two bytes at an even offset, as a 16-bit number. -/
theorem load16_val (e : Endian) {m : List Byte} {i : Nat} (h : i + 2 ≤ m.length) :
    ∃ v, load16 e m i = some v ∧ (swapBe16 e v).toNat = bitsVal (bytesBits ((m.drop i).take 2)) := by
  obtain ⟨v, h1, h2⟩ := load16_ok e h
  refine ⟨v, h1, toNat_of_bits (n := 16) ?_ (swapBe16 e v).isLt⟩
  rw [h2, slice_bits]

theorem take4_split (m : List Byte) (i : Nat) :
    (m.drop i).take 4 = (m.drop i).take 2 ++ (m.drop (i + 2)).take 2 := by
  rw [← List.drop_drop, ← List.take_add]

theorem oclRef_spec (e : Endian) {dst o : Nat} (hd : dst = 2 ∨ dst = 4) (ho : o % 2 = 0) {p : OclP}
    (h : o + 4 ≤ p.buf.length) :
    ∃ v, oclRef e dst o p = .ok v p ∧ v.toNat = bitsVal (bytesBits ((p.buf.drop o).take dst)) := by
  obtain ⟨a, ha, hav⟩ := load16_val e (m := p.buf) (i := o) (by omega)
  obtain ⟨b, hb, hbv⟩ := load16_val e (m := p.buf) (i := o + 2) (by omega)
  have e1 : 2 * (o >>> 1) = o := by rw [Nat.shiftRight_eq_div_pow]; omega
  have e2 : 2 * (o >>> 1 + 1) = o + 2 := by omega
  unfold oclRef
  rw [e1, e2]
  rw [M.access_bind_some (g := fun p : OclP => load16 e p.buf o) ha,
    M.access_bind_some (g := fun p : OclP => load16 e p.buf (o + 2)) hb]
  refine ⟨_, rfl, ?_⟩
  have s48 : ∀ x, oclShl x 48 = x <<< 48 := fun x => rfl
  have s32 : ∀ x, oclShl x 32 = x <<< 32 := fun x => rfl
  rw [s48, s32]
  have hA := (swapBe16 e a).isLt
  have hB := (swapBe16 e b).isLt
  have hor : (((swapBe16 e a).setWidth 64 <<< 48) ||| ((swapBe16 e b).setWidth 64 <<< 32) : BitVec 64).toNat
      = ((swapBe16 e a).toNat * 2 ^ 16 + (swapBe16 e b).toNat) * 2 ^ 32 := by
    rw [BitVec.toNat_or, BitVec.toNat_shiftLeft, BitVec.toNat_shiftLeft, BitVec.toNat_setWidth,
      BitVec.toNat_setWidth, Nat.mod_eq_of_lt (a := (swapBe16 e a).toNat) (by omega),
      Nat.mod_eq_of_lt (a := (swapBe16 e b).toNat) (by omega),
      Nat.mod_eq_of_lt (by rw [Nat.shiftLeft_eq]; omega), Nat.mod_eq_of_lt (by rw [Nat.shiftLeft_eq]; omega),
      Nat.shiftLeft_eq, Nat.shiftLeft_eq]
    have : (swapBe16 e a).toNat * 2 ^ 48 = 2 ^ 48 * (swapBe16 e a).toNat := Nat.mul_comm _ _
    rw [this, ← Nat.two_pow_add_eq_or_of_lt (by omega)]
    omega
  rcases hd with rfl | rfl
  · rw [oclShr_eq (m := 48) (by decide) (by omega), BitVec.toNat_ushiftRight, hor, ← hav, Nat.shiftRight_eq_div_pow]
    omega
  · rw [oclShr_eq (m := 32) (by decide) (by omega), BitVec.toNat_ushiftRight, hor, take4_split, bytesBits_append,
      bitsVal_append, ← hav, ← hbv, length_bytesBits, Nat.shiftRight_eq_div_pow]
    have : ((p.buf.drop (o + 2)).take 2).length = 2 := by simp; omega
    rw [this]
    omega

/-- The read past the end of the buffer. -/
theorem oclRef_ub (e : Endian) {dst o : Nat} (ho : o % 2 = 0) {p : OclP} (h0 : o + 2 ≤ p.buf.length)
    (h : p.buf.length < o + 4) : oclRef e dst o p = .ub := by
  obtain ⟨a, ha, hav⟩ := load16_val e (m := p.buf) (i := o) (by omega)
  have e1 : 2 * (o >>> 1) = o := by rw [Nat.shiftRight_eq_div_pow]; omega
  have e2 : 2 * (o >>> 1 + 1) = o + 2 := by omega
  have hb := load16_none e (m := p.buf) (i := o + 2) (by omega)
  unfold oclRef
  rw [e1, e2]
  rw [M.access_bind_some (g := fun p : OclP => load16 e p.buf o) ha, M.bind_def]
  simp only [M.access, hb]

/-! ## The loop of `do_op` -/

/-- The fields produce the arguments of the actions from the low `m` bits. -/
inductive ORow : List Action → List (Nat × Nat × Nat) → Nat → Prop
  | nil : ORow [] [] 0
  | d2 {acts fs m} : ORow acts fs m → m < 64 → ORow (.D 2 :: acts) ((0, 2, 16) :: fs) (16 + m)
  | d4 {acts fs m} : ORow acts fs m → m + 16 < 64 →
      ORow (.D 4 :: acts) ((0, 2, 16) :: (0, 2, 16) :: fs) (16 + (16 + m))
  | d8 {acts fs m} : ORow acts fs m → m + 48 < 64 →
      ORow (.D 8 :: acts) ((0, 2, 16) :: (0, 2, 16) :: (0, 2, 16) :: (0, 2, 16) :: fs)
        (16 + (16 + (16 + (16 + m))))
  | i2 {acts fs m} : ORow acts fs m → m < 64 → ORow (.I 2 :: acts) ((1, 2, 8) :: fs) (8 + m)
  | i4 {acts fs m} : ORow acts fs m → m < 64 → ORow (.I 4 :: acts) ((1, 4, 9) :: (0, 0, 0) :: fs) (9 + m)

/-- Fields of an action -/
def actFields : Action → List (Nat × Nat × Nat)
  | .D n => List.replicate (n / 2) (0, 2, 16)
  | .I 4 => [(1, 4, 9), (0, 0, 0)]
  | .I _ => [(1, 2, 8)]

/-- Bits of an action -/
def actBits : Action → Nat
  | .D n => 8 * n
  | .I n => indexBits n

theorem orow_of : ∀ acts : List Action, (∀ a ∈ acts, a ∈ [Action.D 2, .D 4, .D 8, .I 2, .I 4]) →
    (acts.map actBits).sum ≤ 64 → ORow acts (acts.flatMap actFields) (acts.map actBits).sum := by
  intro acts
  induction acts with
  | nil => intro _ _; exact .nil
  | cons a acts ih =>
    intro h hb
    rw [List.map_cons, List.sum_cons] at hb
    have ha := h a (List.mem_cons_self ..)
    have hrec := ih (fun x hx => h x (List.mem_cons_of_mem _ hx)) (by omega)
    rw [List.map_cons, List.sum_cons, List.flatMap_cons]
    generalize (acts.map actBits).sum = m at *
    simp only [List.mem_cons, List.not_mem_nil, or_false] at ha
    rcases ha with rfl | rfl | rfl | rfl | rfl
    · simp only [actBits] at hb; exact .d2 hrec (by omega)
    · simp only [actBits] at hb
      have := ORow.d4 hrec (by omega)
      rw [← Nat.add_assoc] at this; exact this
    · simp only [actBits] at hb
      have := ORow.d8 hrec (by omega)
      simp only [← Nat.add_assoc] at this; exact this
    · simp only [actBits, indexBits] at hb; exact .i2 hrec (by simp at hb; omega)
    · simp only [actBits, indexBits] at hb; exact .i4 hrec (by simp at hb; omega)

theorem oclRow_ok : ∀ c, c < 25 → ∃ acts, templates[c]? = some acts ∧ ORow acts (oclRow c) (oclOpbits c) ∧
    actionsSize acts = 8 ∧ 1 ≤ oclOpbits c ∧ oclOpbits c ≤ 64 := by
  intro c hc
  have h : ∀ c : Nat, c < 25 → (match templates[c]? with
      | some acts => decide ((∀ a ∈ acts, a ∈ [Action.D 2, .D 4, .D 8, .I 2, .I 4]) ∧
          oclRow c = acts.flatMap actFields ∧ oclOpbits c = (acts.map actBits).sum ∧
          (acts.map actBits).sum ≤ 64 ∧ 1 ≤ (acts.map actBits).sum ∧ actionsSize acts = 8)
      | none => false) = true := by decide +kernel
  have hc' := h c hc
  cases ht : templates[c]? with
  | none => rw [ht] at hc'; cases hc'
  | some acts =>
    rw [ht] at hc'
    obtain ⟨h1, h2, h3, h4, h5, h6⟩ := of_decide_eq_true hc'
    refine ⟨acts, rfl, ?_, h6, by omega, by omega⟩
    rw [h2, h3]
    exact orow_of acts h1 h4

/-- A literal field -/
theorem oclField_data (e : Endian) (P : BitVec 64) {m : Nat} (hm : m < 64) {ow : BitVec 64} {bs : List Byte}
    (hacc : Acc ow bs) (hl : bs.length + 2 ≤ 8) (p : OclP) :
    ∃ ow' new, new.length = 2 ∧ Acc ow' (bs ++ new) ∧
      bitsOf (16 + m) P.toNat = bytesBits new ++ bitsOf m P.toNat ∧
      oclField e P 0 2 16 (16 + m, ow, 8 * bs.length) p = .ok (m, ow', 8 * (bs ++ new).length) p := by
  obtain ⟨hv, hb⟩ := oclValue_spec P (w := 16) (m := m) (by omega) (by omega) hm
  have hn : bytesBits (wordBytes16 .big ((oclValue P (16 + m) 16).setWidth 16)) =
      bitsOf 16 (oclValue P (16 + m) 16).toNat := by
    rw [bytesBits_wordBytes16, BitVec.toNat_setWidth, Nat.mod_eq_of_lt hv]
  have hacc' := hacc.step (v := oclValue P (16 + m) 16)
    (new := wordBytes16 .big ((oclValue P (16 + m) 16).setWidth 16)) (by rw [length_wordBytes16]; omega)
    (by simp [wordBytes16]) (by rw [hn, bitsVal_bitsOf, Nat.mod_eq_of_lt hv])
  refine ⟨_, _, length_wordBytes16 _ _, hacc', ?_, ?_⟩
  · rw [hn]; exact hb
  · unfold oclField
    simp only [ne_eq, not_true_eq_false, if_false, M.pure_bind_apply, M.pure_apply]
    rw [length_wordBytes16, oclShl_eq (m := 64 - 8 * 2 - 8 * bs.length)
      (by have : (2 <<< 3 : Nat) = 16 := rfl
          rw [this]; omega) (by omega), List.length_append, length_wordBytes16, Nat.add_sub_cancel_left]
    rfl

/-- The empty field after a 4-byte reference -/
theorem oclField_none (e : Endian) (P : BitVec 64) (m b : Nat) (ow : BitVec 64) (p : OclP) :
    oclField e P 0 0 0 (m, ow, b) p = .ok (m, ow, b) p := by
  unfold oclField
  simp [oclValue_zero, oclShl]

/-- An index field -/
theorem oclField_index (e : Endian) (P : BitVec 64) {n m : Nat} (hn : n = 2 ∨ n = 4) (hm : m < 64)
    {ow : BitVec 64} {bs : List Byte} (hacc : Acc ow bs) (hl : bs.length + n ≤ 8) {p : OclP}
    (hol : 8 * p.out ≤ p.buf.length) :
    ∃ v, v < 2 ^ indexBits n ∧
      bitsOf (indexBits n + m) P.toNat = bitsOf (indexBits n) v ++ bitsOf m P.toNat ∧
      ((∃ o ow', RingRef (8 * p.out) n v o ∧ Acc ow' (bs ++ (p.buf.drop o).take n) ∧
          (o + n ≤ 8 * p.out) ∧
          oclField e P 1 n (indexBits n) (indexBits n + m, ow, 8 * bs.length) p =
            .ok (m, ow', 8 * (bs ++ (p.buf.drop o).take n).length) p) ∨
       ((¬ ∃ o, RingRef (8 * p.out) n v o) ∧
          oclField e P 1 n (indexBits n) (indexBits n + m, ow, 8 * bs.length) p = .err .EINVAL p) ∨
       (p.buf.length < 8 * p.out + 2 ∧
          oclField e P 1 n (indexBits n) (indexBits n + m, ow, 8 * bs.length) p = .ub)) := by
  have hs : SizeOk n := by rcases hn with rfl | rfl; exact .inl rfl; exact .inr (.inl rfl)
  have hib := indexBits_bounds n
  obtain ⟨hv, hb⟩ := oclValue_spec P (w := indexBits n) (m := m) hib.1 hib.2 hm
  refine ⟨(oclValue P (indexBits n + m) (indexBits n)).toNat, hv, hb, ?_⟩
  have hfs : oclFifoSize n = ringSize n := by rcases hn with rfl | rfl <;> rfl
  have hrd : roundDown (8 * p.out) 8 = 8 * p.out := by unfold roundDown; omega
  generalize hvv : oclValue P (indexBits n + m) (indexBits n) = v at *
  unfold oclField
  simp only [ne_eq, one_ne_zero, not_false_eq_true, if_true, hvv, hfs]
  unfold oclGetIndex
  rw [M.bind_assoc', M.get_bind_apply]
  simp only [Nat.mul_comm p.out 8]
  by_cases hoff : indexOffset v.toNat n (ringSize n) (8 * p.out) + n > 8 * p.out
  · refine .inr (.inl ⟨?_, ?_⟩)
    · rintro ⟨o, ho⟩
      have := indexOffset_complete hs hv ho
      rw [hrd] at this
      omega
    · rw [if_pos hoff]; rfl
  · rw [if_neg hoff, M.pure_bind_apply]
    have hso := indexOffset_sound (len := 8 * p.out) hs hv (by rw [hrd]; omega)
    rw [hrd] at hso
    generalize indexOffset v.toNat n (ringSize n) (8 * p.out) = o at *
    have heven : o % 2 = 0 := by
      have := hso.1
      rcases hn with rfl | rfl <;> simp [ringSize, indexBits] at this <;> omega
    by_cases h4 : o + 4 ≤ p.buf.length
    · obtain ⟨w, hw, hwv⟩ := oclRef_spec e hn heven h4
      left
      have hlen : ((p.buf.drop o).take n).length = n := by simp; omega
      refine ⟨o, _, hso, hacc.step (v := w) (new := (p.buf.drop o).take n) (by omega)
        (by intro h; rw [h] at hlen; rcases hn with rfl | rfl <;> simp at hlen) hwv, by omega, ?_⟩
      rw [M.bind_ok hw, hlen]
      have hsh : n <<< 3 = 8 * n := by rw [Nat.shiftLeft_eq]; omega
      rw [M.pure_apply, hsh, oclShl_eq (m := 64 - 8 * n - 8 * bs.length) (by omega) (by rcases hn with rfl | rfl <;> omega)]
      simp only [Nat.add_sub_cancel_left, List.length_append, hlen, Nat.mul_add]
    · refine .inr (.inr ⟨by rcases hn with rfl | rfl <;> omega, ?_⟩)
      rw [M.bind_def, oclRef_ub e heven (by rcases hn with rfl | rfl <;> omega) (by omega)]

/-- Result of the loop of `do_op`. -/
inductive FRes (p : OclP) (P : BitVec 64) (m : Nat) (acts : List Action) (out : List Byte) (bs : List Byte) :
    Outcome OclP (Nat × BitVec 64 × Nat) → Prop
  | ok {l bs' args} : Acc l.2.1 (bs ++ bs') → args.map Arg.action = acts → (∀ a ∈ args, a.Valid) →
      bitsOf m P.toNat = args.flatMap Arg.bits → ArgsRun (out ++ bs) args (out ++ bs ++ bs') →
      FRes p P m acts out bs (.ok l p)
  | bad : (∀ args o, args.map Arg.action = acts → (∀ a ∈ args, a.Valid) →
      bitsOf m P.toNat = args.flatMap Arg.bits → ¬ ArgsRun (out ++ bs) args o) →
      FRes p P m acts out bs (.err .EINVAL p)
  | ub : p.buf.length < 8 * p.out + 2 → FRes p P m acts out bs .ub

theorem FRes.data {p : OclP} {P : BitVec 64} {m m' n : Nat} {acts : List Action} {out bs new : List Byte}
    {r : Outcome OclP (Nat × BitVec 64 × Nat)} (hn : new.length = n)
    (hb : bitsOf m' P.toNat = bytesBits new ++ bitsOf m P.toNat) (h : FRes p P m acts out (bs ++ new) r) :
    FRes p P m' (.D n :: acts) out bs r := by
  cases h with
  | @ok l bs' args hacc hm hv hbits hrun =>
    refine .ok (bs' := new ++ bs') (args := .data new :: args) (by rw [← List.append_assoc]; exact hacc)
      (by simp [Arg.action, hn, hm]) (forall_cons trivial hv) ?_ ?_
    · rw [hb, hbits]; rfl
    · refine .cons .data ?_
      simpa only [List.append_assoc] using hrun
  | bad hno =>
    refine .bad fun args o hm hv hbits hrun => ?_
    cases hrun with
    | nil => simp at hm
    | @cons _ a _ as _ h1 h2 =>
      simp only [List.map_cons, List.cons.injEq] at hm
      cases h1 with
      | @data bs2 =>
        simp only [Arg.action, Action.D.injEq] at hm
        rw [hb, List.flatMap_cons] at hbits
        have hi := List.append_inj hbits (by simp [Arg.bits, hm.1, hn])
        have : new = bs2 := bytesBits_inj hi.1
        subst this
        rw [List.append_assoc] at h2
        exact hno as _ hm.2 (fun x hx => hv x (List.mem_cons_of_mem _ hx)) hi.2 h2
      | index => simp [Arg.action] at hm
  | ub h => exact .ub h

theorem FRes.index {p : OclP} {P : BitVec 64} {m m' n v o : Nat} {acts : List Action} {out bs : List Byte}
    {r : Outcome OclP (Nat × BitVec 64 × Nat)} (hv : v < 2 ^ indexBits n) (hs : n = 2 ∨ n = 4)
    (hb : bitsOf m' P.toNat = bitsOf (indexBits n) v ++ bitsOf m P.toNat)
    (hr : RingRef (out ++ bs).length n v o)
    (h : FRes p P m acts out (bs ++ ((out ++ bs).drop o).take n) r) :
    FRes p P m' (.I n :: acts) out bs r := by
  cases h with
  | @ok l bs' args hacc hm hva hbits hrun =>
    refine .ok (bs' := ((out ++ bs).drop o).take n ++ bs') (args := .index n v :: args)
      (by rw [← List.append_assoc]; exact hacc) (by simp [Arg.action, hm]) (forall_cons hv hva) ?_ ?_
    · rw [hb, hbits]; rfl
    · refine .cons (.index hr) ?_
      simpa only [List.append_assoc] using hrun
  | bad hno =>
    refine .bad fun args o' hm hva hbits hrun => ?_
    cases hrun with
    | nil => simp at hm
    | @cons _ a _ as _ h1 h2 =>
      simp only [List.map_cons, List.cons.injEq] at hm
      cases h1 with
      | data => simp [Arg.action] at hm
      | @index n2 v2 o2 hr2 =>
        simp only [Arg.action, Action.I.injEq] at hm
        obtain ⟨rfl, hm⟩ := hm
        rw [hb, List.flatMap_cons] at hbits
        have hi := List.append_inj hbits (by simp [Arg.bits])
        have hv2 : v2 < 2 ^ indexBits n2 := hva _ List.mem_cons_self
        have : v = v2 := bitsOf_inj hi.1 hv hv2
        subst this
        have hd := ArgStep.det (ArgStep.index hr) (.index hr2) hv
          (show ActionOk (.I n2) by rcases hs with rfl | rfl <;> simp [ActionOk, SizeOk])
        rw [← hd, List.append_assoc] at h2
        exact hno as _ hm (fun x hx => hva x (List.mem_cons_of_mem _ hx)) hi.2 h2
  | ub h => exact .ub h

theorem FRes.noindex {p : OclP} {P : BitVec 64} {m m' n v : Nat} {acts : List Action} {out bs : List Byte}
    (hv : v < 2 ^ indexBits n)
    (hb : bitsOf m' P.toNat = bitsOf (indexBits n) v ++ bitsOf m P.toNat)
    (hr : ¬ ∃ o, RingRef (out ++ bs).length n v o) :
    FRes p P m' (.I n :: acts) out bs (.err .EINVAL p) := by
  refine .bad fun args o' hm hva hbits hrun => ?_
  cases hrun with
  | nil => simp at hm
  | @cons _ a _ as _ h1 h2 =>
    simp only [List.map_cons, List.cons.injEq] at hm
    cases h1 with
    | data => simp [Arg.action] at hm
    | @index n2 v2 o2 hr2 =>
      simp only [Arg.action, Action.I.injEq] at hm
      obtain ⟨rfl, hm⟩ := hm
      rw [hb, List.flatMap_cons] at hbits
      have hi := List.append_inj hbits (by simp [Arg.bits])
      have : v = v2 := bitsOf_inj hi.1 hv (hva _ List.mem_cons_self)
      subst this
      exact hr ⟨_, hr2⟩

theorem oclFields_spec (e : Endian) (P : BitVec 64) {acts : List Action} {fs : List (Nat × Nat × Nat)} {m : Nat}
    (h : ORow acts fs m) {p : OclP} (hol : 8 * p.out ≤ p.buf.length) {bs : List Byte} {ow : BitVec 64}
    (hacc : Acc ow bs) (hsz : bs.length + actionsSize acts ≤ 8) :
    FRes p P m acts (p.buf.take (8 * p.out)) bs (oclFields e P fs (m, ow, 8 * bs.length) p) := by
  induction h generalizing bs ow with
  | nil =>
    exact .ok (bs' := []) (args := []) (by simpa using hacc) rfl (by simp) rfl (by simpa using .nil)
  | @d2 acts fs m _ hm ih =>
    have hs : actionsSize (.D 2 :: acts) = 2 + actionsSize acts := by simp [actionsSize, actionSize]
    obtain ⟨ow1, new, hn, ha1, hb1, h1⟩ := oclField_data e P hm hacc (by omega) p
    rw [oclFields, M.bind_ok h1]
    exact (ih ha1 (by simp; omega)).data hn hb1
  | @d4 acts fs m _ hm ih =>
    have hs : actionsSize (.D 4 :: acts) = 4 + actionsSize acts := by simp [actionsSize, actionSize]
    obtain ⟨ow1, new1, hn1, ha1, hb1, h1⟩ := oclField_data e P (m := 16 + m) (by omega) hacc (by omega) p
    obtain ⟨ow2, new2, hn2, ha2, hb2, h2⟩ := oclField_data e P (m := m) (by omega) ha1 (by simp; omega) p
    rw [oclFields, M.bind_ok h1, oclFields, M.bind_ok h2]
    rw [List.append_assoc] at ha2 ⊢
    refine (ih ha2 (by simp; omega)).data (n := 4) (by simp; omega) ?_
    rw [hb1, hb2]; simp
  | @d8 acts fs m _ hm ih =>
    have hs : actionsSize (.D 8 :: acts) = 8 + actionsSize acts := by simp [actionsSize, actionSize]
    obtain ⟨ow1, new1, hn1, ha1, hb1, h1⟩ :=
      oclField_data e P (m := 16 + (16 + (16 + m))) (by omega) hacc (by omega) p
    obtain ⟨ow2, new2, hn2, ha2, hb2, h2⟩ :=
      oclField_data e P (m := 16 + (16 + m)) (by omega) ha1 (by simp; omega) p
    obtain ⟨ow3, new3, hn3, ha3, hb3, h3⟩ := oclField_data e P (m := 16 + m) (by omega) ha2 (by simp; omega) p
    obtain ⟨ow4, new4, hn4, ha4, hb4, h4⟩ := oclField_data e P (m := m) (by omega) ha3 (by simp; omega) p
    rw [oclFields, M.bind_ok h1, oclFields, M.bind_ok h2, oclFields, M.bind_ok h3, oclFields, M.bind_ok h4]
    simp only [List.append_assoc] at ha4 ⊢
    refine (ih ha4 (by simp; omega)).data (n := 8) (by simp; omega) ?_
    rw [hb1, hb2, hb3, hb4]; simp
  | @i2 acts fs m _ hm ih =>
    have hs : actionsSize (.I 2 :: acts) = 2 + actionsSize acts := by simp [actionsSize, actionSize]
    have ht : (p.buf.take (8 * p.out)).length = 8 * p.out := by simp; omega
    have hrr : ∀ v o, RingRef (p.buf.take (8 * p.out) ++ bs).length 2 v o ↔ RingRef (8 * p.out) 2 v o := by
      intro v o
      rw [List.length_append, ht]
      exact RingRef_within (by omega) (by omega)
    obtain ⟨v, hv, hb, hcase⟩ :=
      oclField_index e P (n := 2) (by omega) hm hacc (by omega) hol
    rw [show indexBits 2 = 8 from rfl] at hcase hb
    obtain ⟨o, ow', hr, ha, hole, he⟩ | ⟨hno, he⟩ | ⟨hu, he⟩ := hcase
    · rw [oclFields, M.bind_ok he]
      have hcopy : ((p.buf.take (8 * p.out) ++ bs).drop o).take 2 = (p.buf.drop o).take 2 := by
        rw [List.drop_append_of_le_length (by omega), List.drop_take, List.take_append_of_le_length (by simp; omega),
          List.take_take, Nat.min_eq_left (by omega)]
      refine FRes.index hv (by omega) hb ((hrr _ _).2 hr) ?_
      rw [hcopy]
      exact ih ha (by simp; omega)
    · rw [oclFields, M.bind_err he]
      exact .noindex hv hb (fun ⟨o, h⟩ => hno ⟨o, (hrr _ _).1 h⟩)
    · rw [oclFields, M.bind_def, he]
      exact .ub hu
  | @i4 acts fs m _ hm ih =>
    have hs : actionsSize (.I 4 :: acts) = 4 + actionsSize acts := by simp [actionsSize, actionSize]
    have ht : (p.buf.take (8 * p.out)).length = 8 * p.out := by simp; omega
    have hrr : ∀ v o, RingRef (p.buf.take (8 * p.out) ++ bs).length 4 v o ↔ RingRef (8 * p.out) 4 v o := by
      intro v o
      rw [List.length_append, ht]
      exact RingRef_within (by omega) (by omega)
    obtain ⟨v, hv, hb, hcase⟩ :=
      oclField_index e P (n := 4) (by omega) hm hacc (by omega) hol
    rw [show indexBits 4 = 9 from rfl] at hcase hb
    obtain ⟨o, ow', hr, ha, hole, he⟩ | ⟨hno, he⟩ | ⟨hu, he⟩ := hcase
    · rw [oclFields, M.bind_ok he]
      rw [oclFields, M.bind_ok (oclField_none e P _ _ _ p)]
      have hcopy : ((p.buf.take (8 * p.out) ++ bs).drop o).take 4 = (p.buf.drop o).take 4 := by
        rw [List.drop_append_of_le_length (by omega), List.drop_take, List.take_append_of_le_length (by simp; omega),
          List.take_take, Nat.min_eq_left (by omega)]
      refine FRes.index hv (by omega) hb ((hrr _ _).2 hr) ?_
      rw [hcopy]
      exact ih ha (by simp; omega)
    · rw [oclFields, M.bind_err he]
      exact .noindex hv hb (fun ⟨o, h⟩ => hno ⟨o, (hrr _ _).1 h⟩)
    · rw [oclFields, M.bind_def, he]
      exact .ub hu

/-! ## State -/

/-- Constants of a call: `orig` are the input bytes as they are at the start. -/
structure OclG where
  e : Endian
  src : Option (List Byte)
  ioff : Nat
  ilen : Nat
  olen : Nat
  orig : List Byte
  buf0 : List Byte
  /-- every word that starts inside the input is inside the input object -/
  pad : ∀ j, 8 * j < ilen → 8 * j + 8 ≤ orig.length
  cap : Nat
  fit : cap = min olen buf0.length

/-- Word `j` of the input, zero after the end. -/
def OclG.wordAt (G : OclG) (j : Nat) : BitVec 64 :=
  if 8 * j < G.ilen then swapBe64 G.e ((load64 G.e G.orig (8 * j)).getD 0#64) else 0#64

/-- The complete words of the input. -/
def OclG.bytes (G : OclG) : List Byte := G.orig.take (8 * (G.ilen / 8))

structure OclG.WInv (G : OclG) (p : OclP) : Prop where
  src : p.src = G.src
  ioff : p.ioff = G.ioff
  ilen : p.ilen = G.ilen
  olen : p.olen = G.olen
  len : p.buf.length = G.buf0.length
  frame : p.buf.drop (8 * p.out) = G.buf0.drop (8 * p.out)
  word : 8 * p.word ≤ G.ilen
  win : WinOk p.buffer p.bits
  la : p.la = [G.wordAt p.word, G.wordAt (p.word + 1), G.wordAt (p.word + 2), G.wordAt (p.word + 3),
    G.wordAt (p.word + 4), G.wordAt (p.word + 5)]
  out : 8 * p.out ≤ G.cap

/-- The words that have not been fetched are still there. -/
def OclG.Fut (G : OclG) (p : OclP) : Prop :=
  ∀ j, p.word + 6 ≤ j → 8 * j < G.ilen →
    (load64 G.e p.input (8 * (G.ioff + j))).map (swapBe64 G.e) = some (G.wordAt j)

def OclG.dec (G : OclG) : Dec OclP where
  WInv := G.WInv
  Fut := G.Fut
  Keep p := G.src ≠ none ∨ 8 * p.out ≤ 8 * (G.ioff + p.word + 6) ∨ G.ilen ≤ 8 * (p.word + 6)
  rest p := winBits p.buffer p.bits ++ (bytesBits G.bytes).drop (64 * p.word)
  outp p := p.buf.take (8 * p.out)
  cap := G.cap
  U p := p.buf.length < 8 * p.out + 2 ∨ p.buf.length < 8 * (G.olen / 8)
  E p := p.buf.length = G.buf0.length ∧ p.buf.drop G.cap = G.buf0.drop G.cap

theorem drop_eq_of_le {α : Type} {a b : List α} {i j : Nat} (h : a.drop i = b.drop i) (hij : i ≤ j) :
    a.drop j = b.drop j := by
  obtain ⟨k, rfl⟩ := Nat.le.dest hij
  rw [← List.drop_drop, ← List.drop_drop, h]

theorem OclG.length_bytes (G : OclG) : G.bytes.length = 8 * (G.ilen / 8) := by
  unfold OclG.bytes
  by_cases h : G.ilen / 8 = 0
  · rw [h]; simp
  · have := G.pad (G.ilen / 8 - 1) (by omega)
    simp; omega

theorem OclG.wordAt_bits (G : OclG) {j : Nat} (h : 8 * (j + 1) ≤ G.ilen) :
    (bytesBits G.bytes).drop (64 * j) =
      bitsOf 64 (G.wordAt j).toNat ++ (bytesBits G.bytes).drop (64 * (j + 1)) := by
  have hp := G.pad j (by omega)
  obtain ⟨v, h1, h2⟩ := load64_word G.e hp
  unfold OclG.wordAt OclG.bytes
  rw [if_pos (by omega), h1]
  exact h2 _ (by omega)

theorem OclG.WInv.e {G : OclG} {p : OclP} (h : G.WInv p) : G.dec.E p :=
  ⟨h.len, drop_eq_of_le h.frame h.out⟩

theorem OclG.WInv.length_outp {G : OclG} {p : OclP} (h : G.WInv p) :
    (p.buf.take (8 * p.out)).length = 8 * p.out := by
  have := h.len
  have := h.out
  have := G.fit
  simp; omega

/-- The next word can be fetched. -/
theorem oclFetch_ok {G : OclG} {p : OclP} (hp : G.WInv p) (hf : G.Fut p) :
    oclFetch G.e 6 p = some (G.wordAt (p.word + 6)) := by
  unfold oclFetch
  by_cases h : (p.word + 6) * 8 < p.ilen
  · rw [if_pos h]
    have := hf (p.word + 6) (Nat.le_refl _) (by have := hp.ilen; omega)
    rw [hp.ioff, Nat.add_assoc]
    exact this
  · rw [if_neg h]
    unfold OclG.wordAt
    rw [if_neg (by have := hp.ilen; omega)]

theorem oclReadBits_spec {G : OclG} {n : Nat} (hn1 : 1 ≤ n) (hn : n ≤ 64) {p : OclP} (hp : G.WInv p)
    (hf : G.Fut p) :
    (∃ v p', oclReadBits G.e n p = .ok v p' ∧ G.WInv p' ∧ G.Fut p' ∧ p'.buf = p.buf ∧ p'.out = p.out ∧
      v.toNat < 2 ^ n ∧ G.dec.rest p = bitsOf n v.toNat ++ G.dec.rest p') ∨
    (oclReadBits G.e n p = .err .EINVAL p ∧ (G.dec.rest p).length < n) := by
  unfold oclReadBits
  rw [M.get_bind_apply]
  by_cases hb : p.bits < n
  · rw [if_pos hb]
    by_cases hw : (p.word + 1) * 8 > p.ilen
    · right
      rw [if_pos hw]
      refine ⟨rfl, ?_⟩
      have := hp.ilen
      have := hp.word
      show (winBits p.buffer p.bits ++ (bytesBits G.bytes).drop (64 * p.word)).length < n
      simp only [List.length_append, length_winBits, List.length_drop, length_bytesBits, G.length_bytes]
      omega
    · left
      rw [if_neg hw]
      have hil := hp.ilen
      obtain ⟨v, b', h1, h2, h3, h4⟩ := winMiss_bits (w := G.wordAt p.word) hp.win hb hn
      obtain ⟨la, hla⟩ : ∃ la, la = [G.wordAt (p.word + 1), G.wordAt (p.word + 2), G.wordAt (p.word + 3),
            G.wordAt (p.word + 4), G.wordAt (p.word + 5), G.wordAt (p.word + 6)] := ⟨_, rfl⟩
      have hsh : oclShift G.e p = .ok (G.wordAt p.word) { p with la := la } := by
        unfold oclShift
        rw [M.access_bind_some (g := oclFetch G.e 6) (oclFetch_ok hp hf), M.get_bind_apply, hp.la, hla]
        rfl
      refine ⟨v, { p with word := p.word + 1, buffer := b', bits := p.bits + 64 - n, la := la },
        ?_, ?_, ?_, rfl, rfl, h2, ?_⟩
      · rw [M.bind_ok hsh, M.modify_bind_apply,
          M.access_bind_some (g := fun _ => winMiss p.buffer p.bits n (G.wordAt p.word)) h1]
        rfl
      · exact ⟨hp.src, hp.ioff, hp.ilen, hp.olen, hp.len, hp.frame, by simp only; omega, h3, hla, hp.out⟩
      · intro j hj hl
        exact hf j (by simp only at hj; omega) hl
      · show winBits p.buffer p.bits ++ _ = _ ++ (winBits b' (p.bits + 64 - n) ++ _)
        rw [G.wordAt_bits (by omega), ← List.append_assoc, h4, List.append_assoc]
  · left
    rw [if_neg hb]
    obtain ⟨v, b', h1, h2, h3, h4⟩ := winHit_bits hp.win hn1 (by omega)
    refine ⟨v, { p with buffer := b', bits := p.bits - n }, ?_, ?_, hf, rfl, rfl, h2, ?_⟩
    · rw [M.access_bind_some (g := fun p : OclP => winHit p.buffer p.bits n) h1]
      rfl
    · exact ⟨hp.src, hp.ioff, hp.ilen, hp.olen, hp.len, hp.frame, hp.word, h3, hp.la, hp.out⟩
    · show winBits p.buffer p.bits ++ _ = _ ++ (winBits b' (p.bits - n) ++ _)
      rw [h4, List.append_assoc]

/-- `p'` is `p` after more output. -/
structure OFrame (p p' : OclP) : Prop where
  src : p'.src = p.src
  word : p'.word = p.word
  len : p'.buf.length = p.buf.length
  drop : p'.buf.drop (8 * p'.out) = p.buf.drop (8 * p'.out)
  le : p.out ≤ p'.out
  rest : p'.buffer = p.buffer ∧ p'.bits = p.bits

theorem OFrame.refl (p : OclP) : OFrame p p := ⟨rfl, rfl, rfl, rfl, Nat.le_refl _, rfl, rfl⟩

theorem OFrame.trans {p q r : OclP} (h : OFrame p q) (h' : OFrame q r) : OFrame p r :=
  ⟨h'.src.trans h.src, h'.word.trans h.word, h'.len.trans h.len,
    h'.drop.trans (drop_eq_of_le h.drop (Nat.mul_le_mul_left 8 h'.le)), h.le.trans h'.le,
    h'.rest.1.trans h.rest.1, h'.rest.2.trans h.rest.2⟩

theorem OFrame.rest_eq {G : OclG} {p p' : OclP} (h : OFrame p p') : G.dec.rest p' = G.dec.rest p := by
  show winBits _ _ ++ _ = winBits _ _ ++ _
  rw [h.rest.1, h.rest.2, h.word]

theorem load64_drop (e : Endian) {a b : List Byte} {i j : Nat} (hl : a.length = b.length)
    (h : a.drop i = b.drop i) (hij : i ≤ j) : load64 e a j = load64 e b j := by
  unfold load64 readBytes
  rw [hl, drop_eq_of_le h hij]

theorem OFrame.fut {G : OclG} {p p' : OclP} (h : OFrame p p') (hp : G.WInv p) (hf : G.Fut p)
    (hk : G.dec.Keep p') : G.Fut p' := by
  intro j hj hl
  rw [h.word] at hj
  have := hf j hj hl
  rw [← this]
  congr 1
  unfold OclP.input
  rw [h.src]
  cases hs : p.src with
  | some inp => rfl
  | none =>
    simp only [Option.getD_none]
    rcases hk with hk | hk | hk
    · exact absurd (hp.src.symm.trans hs) hk
    · have := h.word
      exact load64_drop _ h.len h.drop (by omega)
    · have := h.word; omega

/-- Storing one word -/
theorem oclPut_ok {G : OclG} {p : OclP} (hp : G.WInv p) {bs : List Byte} (hl : bs.length = 8)
    (hr : 8 * p.out + 8 ≤ G.cap) :
    ∃ p', oclPut bs p = .ok () p' ∧ G.WInv p' ∧ OFrame p p' ∧ p'.out = p.out + 1 ∧
      G.dec.outp p' = G.dec.outp p ++ bs := by
  have hlen := hp.len
  have hfit := G.fit
  unfold oclPut
  rw [M.update_bind_some (g := fun p : OclP => (writeBytes p.buf (8 * p.out) bs).map fun b => { p with buf := b })
    (s' := { p with buf := p.buf.take (8 * p.out) ++ bs ++ p.buf.drop (8 * p.out + bs.length) })
    (by rw [writeBytes_ok (by omega), Option.map_some])]
  have hlb : (p.buf.take (8 * p.out) ++ bs ++ p.buf.drop (8 * p.out + bs.length)).length = p.buf.length := by
    simp; omega
  have hd : ∀ k, 8 * p.out + 8 ≤ k →
      (p.buf.take (8 * p.out) ++ bs ++ p.buf.drop (8 * p.out + bs.length)).drop k = p.buf.drop k := by
    intro k hk
    have hpl : (p.buf.take (8 * p.out) ++ bs).length = 8 * p.out + 8 := by simp; omega
    rw [List.drop_append, List.drop_of_length_le (by omega), List.nil_append, List.drop_drop, hpl]
    congr 1; omega
  refine ⟨_, rfl, ⟨hp.src, hp.ioff, hp.ilen, hp.olen, hlb.trans hp.len, ?_, hp.word, hp.win, hp.la, ?_⟩,
    ⟨rfl, rfl, hlb, hd _ (by simp only; omega), by simp, rfl, rfl⟩, rfl, ?_⟩
  · simp only
    rw [hd _ (by omega)]; exact drop_eq_of_le hp.frame (by omega)
  · simp only; omega
  · show (p.buf.take (8 * p.out) ++ bs ++ _).take (8 * (p.out + 1)) = p.buf.take (8 * p.out) ++ bs
    have hpl : (p.buf.take (8 * p.out) ++ bs).length = 8 * (p.out + 1) := by simp; omega
    rw [List.take_append_of_le_length (by omega), List.take_of_length_le (by omega)]

theorem oclPut_ub {p : OclP} {bs : List Byte} (h : ¬ 8 * p.out + bs.length ≤ p.buf.length) :
    oclPut bs p = .ub := by
  unfold oclPut
  rw [M.bind_def]
  simp [M.update, writeBytes, h]

theorem oclRoom_ok {p : OclP} {k : Nat} (h : 8 * p.out + 8 * k ≤ p.olen) : oclRoom k p = .ok () p := by
  unfold oclRoom
  rw [M.get_bind_apply, if_neg (by omega)]; rfl

theorem oclRoom_full {p : OclP} {k : Nat} (h : ¬ 8 * p.out + 8 * k ≤ p.olen) :
    oclRoom k p = .err .ENOSPC p := by
  unfold oclRoom
  rw [M.get_bind_apply, if_pos (by omega)]; rfl

theorem take_out {p : OclP} {o n : Nat} (h : o + n ≤ 8 * p.out) :
    (p.buf.drop o).take n = ((p.buf.take (8 * p.out)).drop o).take n := by
  rw [List.drop_take, List.take_take, Nat.min_eq_left (by omega)]

theorem oclRepeat_ok (k : Nat) {G : OclG} {p : OclP} (hp : G.WInv p) (h8 : 1 ≤ p.out)
    (hsp : 8 * p.out + 8 * k ≤ G.cap) :
    ∃ p', oclRepeat k p = .ok () p' ∧ G.WInv p' ∧ OFrame p p' ∧
      G.dec.outp p' = G.dec.outp p ++
        (List.replicate k ((G.dec.outp p).drop ((G.dec.outp p).length - 8))).flatten := by
  induction k generalizing p with
  | zero => exact ⟨p, rfl, hp, .refl p, by simp⟩
  | succ k ih =>
    have hlo : (G.dec.outp p).length = 8 * p.out := hp.length_outp
    have hlen := hp.len
    have hfit := G.fit
    rw [oclRepeat]
    rw [M.access_bind_some
      (g := fun p : OclP => if p.out = 0 then none else readBytes p.buf (8 * (p.out - 1)) 8)
      (a := (p.buf.drop (8 * (p.out - 1))).take 8)
      (by rw [if_neg (by omega), readBytes_ok (by omega)])]
    have hx : (p.buf.drop (8 * (p.out - 1))).take 8 = (G.dec.outp p).drop ((G.dec.outp p).length - 8) := by
      rw [take_out (by omega), hlo]
      rw [List.take_of_length_le (by simp; omega)]
      show _ = (p.buf.take (8 * p.out)).drop _
      congr 1; omega
    rw [hx]
    obtain ⟨p1, h1, hi1, hf1, ho1, hout1⟩ := oclPut_ok hp
      (bs := (G.dec.outp p).drop ((G.dec.outp p).length - 8)) (by simp [hlo]; omega) (by omega)
    rw [M.bind_ok h1]
    obtain ⟨p2, h2, hi2, hf2, hout2⟩ := ih hi1 (by omega) (by omega)
    refine ⟨p2, h2, hi2, hf1.trans hf2, ?_⟩
    rw [hout2, hout1, drop_last8 _ (by omega) _ rfl, List.replicate_succ, List.flatten_cons,
      List.append_assoc]

theorem oclRepeat_ub (k : Nat) {G : OclG} {p : OclP} (hp : G.WInv p) (h8 : 1 ≤ p.out)
    (ho : 8 * p.out + 8 * k ≤ G.olen) (hsp : p.buf.length < 8 * p.out + 8 * k) :
    oclRepeat k p = .ub := by
  induction k generalizing p with
  | zero => have := hp.len; have := hp.out; have := G.fit; omega
  | succ k ih =>
    have hlen := hp.len
    have hfit := G.fit
    have hpo := hp.out
    rw [oclRepeat]
    rw [M.access_bind_some
      (g := fun p : OclP => if p.out = 0 then none else readBytes p.buf (8 * (p.out - 1)) 8)
      (a := (p.buf.drop (8 * (p.out - 1))).take 8)
      (by rw [if_neg (by omega), readBytes_ok (by omega)])]
    have hbs : ((p.buf.drop (8 * (p.out - 1))).take 8).length = 8 := by simp; omega
    by_cases hn : 8 * p.out + 8 ≤ p.buf.length
    · obtain ⟨p1, h1, hi1, hf1, ho1, hout1⟩ := oclPut_ok hp hbs (by omega)
      rw [M.bind_ok h1]
      exact ih hi1 (by omega) (by omega) (by rw [hf1.len]; omega)
    · rw [M.bind_def, oclPut_ub (by omega)]

/-! ## One iteration -/

theorem ORow.bits_length {acts : List Action} {fs : List (Nat × Nat × Nat)} {m : Nat} (h : ORow acts fs m)
    {args : List Arg} (hacts : args.map Arg.action = acts) : (args.flatMap Arg.bits).length = m := by
  have h1 : (acts.map actionBits).sum = m := by
    clear hacts
    induction h with
    | nil => rfl
    | d2 _ _ ih | d4 _ _ ih | d8 _ _ ih | i2 _ _ ih | i4 _ _ ih =>
      rw [List.map_cons, List.sum_cons, ih]; first | (simp [actionBits, indexBits]; done) | (simp [actionBits, indexBits]; omega)
  rw [List.length_flatMap, ← h1, ← hacts, List.map_map]
  congr 1
  apply List.map_congr_left
  intro a _
  exact arg_bits_length a

/-- Ops whose code is a template code are that template. -/
theorem opCode_template {op : Op} {c : Nat} (hv : op.Valid) (h : opCode op = c) (hc : c < 26) :
    ∃ args, op = .template c args ∧ templates[c]? = some (args.map Arg.action) ∧ ∀ a ∈ args, a.Valid := by
  cases op with
  | template code args => simp only [opCode] at h; subst h; exact ⟨args, rfl, hv.1, hv.2⟩
  | rep => simp only [opCode] at h; omega
  | zeros => simp only [opCode] at h; omega
  | short => simp only [opCode] at h; omega

/-- `do_op` for one of the templates without an 8-byte reference. -/
theorem oclDoOp_step {G : OclG} {p p1 : OclP} {v : Nat} (hv : v < 25) (hi1 : G.WInv p1) (hf1 : G.Fut p1)
    (hb : p1.buf = p.buf) (ho : p1.out = p.out) (hr : G.dec.rest p = bitsOf 5 v ++ G.dec.rest p1) :
    G.dec.Step p ((oclDoOp G.e v >>= fun _ => pure false) p1) := by
  have houtp : G.dec.outp p1 = G.dec.outp p := by
    show p1.buf.take (8 * p1.out) = p.buf.take (8 * p.out); rw [hb, ho]
  obtain ⟨acts, ht, hrow, hsz, hm1, hm⟩ := oclRow_ok v hv
  unfold oclDoOp
  rw [if_neg (by omega), M.bind_assoc']
  rcases oclReadBits_spec (G := G) hm1 hm hi1 hf1 with ⟨P, p2, h2, hi2, hf2, hb2, ho2, hP, hr2⟩ | ⟨h2, hlt⟩
  swap
  · rw [M.bind_err h2]
    refine .bad_of hr (by omega) (by omega) hi1.e fun op R o hval _ hc htail _ => ?_
    obtain ⟨args, rfl, hargs, _⟩ := opCode_template hval hc (by omega)
    rw [ht] at hargs
    have := hrow.bits_length (Option.some.inj hargs).symm
    rw [htail] at hlt
    simp only [opTail, List.length_append] at hlt
    omega
  have houtp2 : G.dec.outp p2 = G.dec.outp p := by
    rw [← houtp]; show p2.buf.take (8 * p2.out) = p1.buf.take (8 * p1.out); rw [hb2, ho2]
  have hlen2 := hi2.len
  have hout2 := hi2.out
  have hfit := G.fit
  rw [M.bind_ok h2, M.bind_assoc']
  have hres := oclFields_spec G.e P hrow (p := p2) (by omega) Acc.nil (by simp; omega)
  rw [show 8 * ([] : List Byte).length = 0 from rfl] at hres
  generalize hx : oclFields G.e P (oclRow v) (oclOpbits v, 0#64, 0) p2 = x at hres
  cases hres with
  | bad hno =>
    rw [M.bind_err hx]
    refine .bad_of hr (by omega) (by omega) hi2.e fun op R o hval _ hc htail hst => ?_
    obtain ⟨args, rfl, hargs, hav⟩ := opCode_template hval hc (by omega)
    rw [ht] at hargs
    have hacts := (Option.some.inj hargs).symm
    have hbl := hrow.bits_length hacts
    rw [hr2] at htail
    obtain ⟨hbits, -⟩ := List.append_inj htail (by simp [opTail, hbl])
    cases hst with
    | template hrun =>
      refine hno args o hacts hav hbits ?_
      rw [List.append_nil]
      rw [← houtp2] at hrun; exact hrun
  | ub hu =>
    rw [M.bind_def, hx]
    have hup : p.buf.length < 8 * p.out + 2 := by rw [← hb, ← ho, ← hb2, ← ho2]; exact hu
    refine .ub (.inl hup) ⟨fun R he => ?_, fun op R o hval hsh _ hst => ?_⟩
    · rw [hr] at he
      obtain ⟨h1, -⟩ := List.append_inj he (by simp)
      have := bitsOf_inj h1 (by omega) (by omega)
      omega
    · have := opStep_grow hval hsh hst
      rw [← houtp2] at this
      have hl := hi2.length_outp
      have hl' : (G.dec.outp p2).length = 8 * p2.out := hl
      show G.cap < o.length
      omega
  | @ok l bs args hacc hacts hav hbits hrun =>
    rw [M.bind_ok hx, M.bind_assoc']
    rw [List.append_nil] at hrun
    rw [List.nil_append] at hacc
    have hlr := ArgsRun.length_eq hrun
    rw [hacts, hsz] at hlr
    have hbs : bs.length = 8 := by simpa using hlr
    rw [hacc.bytes hbs G.e]
    have hvalid : (Op.template v args).Valid := ⟨by rw [ht, hacts], hav⟩
    have hrest : G.dec.rest p = (Op.template v args).bits ++ G.dec.rest p2 := by
      rw [hr, hr2, hbits, Op.bits, List.append_assoc]
    have hstep : OpStep (G.dec.outp p) (Op.template v args) (G.dec.outp p ++ bs) := by
      rw [← houtp2]; exact .template hrun
    by_cases hroom : 8 * p2.out + 8 * 1 ≤ p2.olen
    · have hol2 := hi2.olen
      by_cases hn : 8 * p2.out + 8 ≤ p2.buf.length
      swap
      · rw [M.bind_ok (oclRoom_ok hroom), M.bind_def, oclPut_ub (by omega)]
        have hl' : (G.dec.outp p2).length = 8 * p2.out := hi2.length_outp
        refine .ub_of hvalid hrest (.inr ?_) hstep ?_
        · rw [← hb, ← hb2]; omega
        · show G.cap < _
          rw [← houtp2, List.length_append]
          omega
      obtain ⟨p3, h3, hi3, hf3, ho3, hout3⟩ := oclPut_ok hi2 hbs (by omega)
      rw [M.bind_ok (oclRoom_ok hroom), M.bind_ok h3]
      refine .op (op := .template v args) hi3 (fun hk => hf3.fut hi2 hf2 hk) hvalid rfl ?_ ?_
      · rw [hf3.rest_eq]; exact hrest
      · rw [hout3, houtp2]; exact hstep
    · rw [M.bind_err (oclRoom_full hroom)]
      refine .full hvalid rfl hrest hstep ?_ hi2.e
      have hl' : (G.dec.outp p2).length = 8 * p2.out := hi2.length_outp
      have := hi2.olen
      rw [← houtp2]
      show G.cap < _
      simp only [List.length_append, hl', hbs]
      omega

/-- The 8-byte reference -/
theorem oclI8_step {G : OclG} {p p1 : OclP} (hi1 : G.WInv p1) (hf1 : G.Fut p1)
    (hb : p1.buf = p.buf) (ho : p1.out = p.out) (hr : G.dec.rest p = bitsOf 5 25 ++ G.dec.rest p1) :
    G.dec.Step p ((do
      let value ← oclReadBits G.e 8
      let offset ← oclGetIndex 8 value.toNat (8 * 2 ^ 8)
      oclRoom 1
      let bs ← M.access fun p => readBytes p.buf (8 * (offset >>> 3)) 8
      oclPut bs
      pure false) p1) := by
  have houtp : G.dec.outp p1 = G.dec.outp p := by
    show p1.buf.take (8 * p1.out) = p.buf.take (8 * p.out); rw [hb, ho]
  have ht : templates[25]? = some [.I 8] := rfl
  have hone : ∀ args : List Arg, args.map Arg.action = [.I 8] → ∃ i, args = [.index 8 i] := by
    intro args h
    match args with
    | [] => simp at h
    | [.data bs] => simp [Arg.action] at h
    | [.index n i] => simp [Arg.action] at h; exact ⟨i, by rw [h]⟩
    | _ :: _ :: _ => simp at h
  rcases oclReadBits_spec (G := G) (n := 8) (by omega) (by omega) hi1 hf1 with
    ⟨P, p2, h2, hi2, hf2, hb2, ho2, hP, hr2⟩ | ⟨h2, hlt⟩
  swap
  · rw [M.bind_err h2]
    refine .bad_of hr (by omega) (by omega) hi1.e fun op R o hval _ hc htail _ => ?_
    obtain ⟨args, rfl, hargs, _⟩ := opCode_template hval hc (by omega)
    obtain ⟨i, rfl⟩ := hone args (Option.some.inj (ht ▸ hargs)).symm
    rw [htail] at hlt
    simp [opTail, Arg.bits, indexBits] at hlt
  have houtp2 : G.dec.outp p2 = G.dec.outp p := by
    rw [← houtp]; show p2.buf.take (8 * p2.out) = p1.buf.take (8 * p1.out); rw [hb2, ho2]
  have hlen2 := hi2.len
  have hout2 := hi2.out
  have hfit := G.fit
  have hl' : (G.dec.outp p2).length = 8 * p2.out := hi2.length_outp
  have hs8 : SizeOk 8 := .inr (.inr rfl)
  have hrd : roundDown (8 * p2.out) 8 = 8 * p2.out := by unfold roundDown; omega
  rw [M.bind_ok h2]
  unfold oclGetIndex
  rw [M.bind_assoc', M.get_bind_apply]
  simp only [Nat.mul_comm p2.out 8]
  rw [show 8 * 2 ^ 8 = ringSize 8 from rfl]
  by_cases hoff : indexOffset P.toNat 8 (ringSize 8) (8 * p2.out) + 8 > 8 * p2.out
  · rw [if_pos hoff]
    refine .bad_of hr (by omega) (by omega) hi2.e fun op R o hval _ hc htail hst => ?_
    obtain ⟨args, rfl, hargs, hav⟩ := opCode_template hval hc (by omega)
    obtain ⟨i, rfl⟩ := hone args (Option.some.inj (ht ▸ hargs)).symm
    rw [hr2] at htail
    obtain ⟨hbits, -⟩ := List.append_inj htail (by simp [opTail, Arg.bits, indexBits])
    have hib : i < 2 ^ indexBits 8 := hav _ List.mem_cons_self
    have : P.toNat = i := bitsOf_inj (n := 8) (by simpa [opTail, Arg.bits, indexBits] using hbits) hP hib
    cases hst with
    | template hrun =>
      cases hrun with
      | cons h1 _ =>
        cases h1 with
        | index href =>
          rw [← houtp2, hl'] at href
          have := indexOffset_complete hs8 hib href
          rw [hrd] at this
          subst i
          omega
  · rw [if_neg hoff, M.pure_bind_apply]
    have hso := indexOffset_sound (len := 8 * p2.out) hs8 (i := P.toNat) hP (by rw [hrd]; omega)
    rw [hrd] at hso
    generalize indexOffset P.toNat 8 (ringSize 8) (8 * p2.out) = o at *
    have h8 : o % 8 = 0 := by
      have := hso.1
      simp [ringSize, indexBits] at this; omega
    have hvalid : (Op.template 25 [.index 8 P.toNat]).Valid :=
      ⟨by rw [ht]; rfl, by intro a ha; rw [List.mem_singleton] at ha; subst ha; exact hP⟩
    have hrest : G.dec.rest p = (Op.template 25 [.index 8 P.toNat]).bits ++ G.dec.rest p2 := by
      rw [hr, hr2, Op.bits, List.append_assoc]; rfl
    have hstep : OpStep (G.dec.outp p) (Op.template 25 [.index 8 P.toNat])
        (G.dec.outp p ++ ((G.dec.outp p2).drop o).take 8) := by
      rw [← houtp2]
      exact .template (.cons (.index (by rw [hl']; exact hso)) .nil)
    have hbs : (((G.dec.outp p2).drop o).take 8).length = 8 := by simp [hl']; omega
    by_cases hroom : 8 * p2.out + 8 * 1 ≤ p2.olen
    · have hol2 := hi2.olen
      rw [M.bind_ok (oclRoom_ok hroom),
        M.access_bind_some (g := fun p : OclP => readBytes p.buf (8 * (o >>> 3)) 8)
          (a := ((G.dec.outp p2).drop o).take 8) (by
            rw [show 8 * (o >>> 3) = o by rw [Nat.shiftRight_eq_div_pow]; omega, readBytes_ok (by omega),
              take_out (by omega)]; rfl)]
      by_cases hn : 8 * p2.out + 8 ≤ p2.buf.length
      swap
      · rw [M.bind_def, oclPut_ub (by omega)]
        refine .ub_of hvalid hrest (.inr ?_) hstep ?_
        · rw [← hb, ← hb2]; omega
        · show G.cap < _
          rw [← houtp2, List.length_append]
          omega
      obtain ⟨p3, h3, hi3, hf3, ho3, hout3⟩ := oclPut_ok hi2 hbs (by omega)
      rw [M.bind_ok h3]
      refine .op (op := .template 25 [.index 8 P.toNat]) hi3 (fun hk => hf3.fut hi2 hf2 hk) hvalid rfl ?_ ?_
      · rw [hf3.rest_eq]; exact hrest
      · rw [hout3]; nth_rewrite 1 [houtp2]; exact hstep
    · rw [M.bind_err (oclRoom_full hroom)]
      refine .full hvalid rfl hrest hstep ?_ hi2.e
      have := hi2.olen
      rw [← houtp2]
      show G.cap < _
      simp only [List.length_append, hl', hbs]
      omega

theorem oclIter_step {G : OclG} {p : OclP} (hp : G.WInv p) (hf : G.Fut p) :
    G.dec.Step p (oclIter G.e p) := by
  unfold oclIter
  rcases oclReadBits_spec (G := G) (n := 5) (by omega) (by omega) hp hf with
    ⟨v, p1, h1, hi1, hf1, hb1, ho1, hv, hr1⟩ | ⟨h1, hlt⟩
  swap
  · rw [M.bind_err h1]; exact .bad_short hlt hp.e
  have houtp : G.dec.outp p1 = G.dec.outp p := by
    show p1.buf.take (8 * p1.out) = p.buf.take (8 * p.out); rw [hb1, ho1]
  have hl1 : (G.dec.outp p1).length = 8 * p1.out := hi1.length_outp
  have hv' : v.toNat < 32 := hv
  rw [M.bind_ok h1]
  by_cases h1b : v.toNat = 0x1B
  · rw [if_pos h1b]
    rw [h1b] at hr1
    rcases oclReadBits_spec (G := G) (n := 6) (by omega) (by omega) hi1 hf1 with
      ⟨r, p2, h2, hi2, hf2, hb2, ho2, hrv, hr2⟩ | ⟨h2, hlt⟩
    swap
    · rw [M.bind_err h2]
      refine .bad_of hr1 (by omega) (by omega) hi1.e fun op R o hval _ hc htail _ => ?_
      cases op with
      | rep n => rw [htail] at hlt; simp [opTail] at hlt
      | template code args => have := (templates_ok code _ hval.1).1; simp only [opCode] at hc; omega
      | zeros => simp [opCode] at hc
      | short => simp [opCode] at hc
    have houtp2 : G.dec.outp p2 = G.dec.outp p := by
      rw [← houtp]; show p2.buf.take (8 * p2.out) = p1.buf.take (8 * p1.out); rw [hb2, ho2]
    have hl2 : (G.dec.outp p2).length = 8 * p2.out := hi2.length_outp
    rw [M.bind_ok h2, M.get_bind_apply]
    by_cases hz : p2.out = 0
    · rw [if_pos hz]
      refine .bad_of hr1 (by omega) (by omega) hi2.e fun op R o hval _ hc htail hst => ?_
      cases hst with
      | rep h8 => rw [← houtp2, hl2] at h8; omega
      | template => have := (templates_ok _ _ hval.1).1; simp only [opCode] at hc; omega
      | zeros => simp [opCode] at hc
      | short => simp [opCode] at hc
    rw [if_neg hz]
    have hrest : G.dec.rest p = (Op.rep r.toNat).bits ++ G.dec.rest p2 := by
      rw [hr1, hr2, Op.bits, List.append_assoc]
    have hstep : OpStep (G.dec.outp p2) (Op.rep r.toNat) _ := .rep (by omega)
    by_cases hroom : 8 * p2.out + 8 * (r.toNat + 1) ≤ p2.olen
    · have hol2 := hi2.olen
      have hlen2 := hi2.len
      have hfit := G.fit
      by_cases hn : 8 * p2.out + 8 * (r.toNat + 1) ≤ p2.buf.length
      swap
      · rw [M.bind_ok (oclRoom_ok hroom), M.bind_def,
          oclRepeat_ub (r.toNat + 1) hi2 (by omega) (by omega) (by omega)]
        rw [houtp2] at hstep
        refine .ub_of (op := .rep r.toNat) hrv hrest (.inr ?_) hstep ?_
        · rw [← hb1, ← hb2]; omega
        · show G.cap < _
          rw [← houtp2, List.length_append, flatten_len8 _ (by omega), hl2]
          omega
      obtain ⟨p3, h3, hi3, hf3, hout3⟩ := oclRepeat_ok (r.toNat + 1) hi2 (by omega) (by omega)
      rw [M.bind_ok (oclRoom_ok hroom), M.bind_ok h3]
      refine .op (op := .rep r.toNat) hi3 (fun hk => hf3.fut hi2 hf2 hk) hrv rfl ?_ ?_
      · rw [hf3.rest_eq]; exact hrest
      · rw [hout3, ← houtp2]; exact hstep
    · rw [M.bind_err (oclRoom_full hroom)]
      refine .full (op := .rep r.toNat) hrv rfl hrest (by rw [← houtp2]; exact hstep) ?_ hi2.e
      have := hi2.olen
      have := G.fit
      show G.cap < _
      rw [List.length_append, flatten_len8 _ (by omega), hl2]
      omega
  rw [if_neg h1b]
  by_cases h1c : v.toNat = 0x1C
  · rw [if_pos h1c]
    rw [h1c] at hr1
    by_cases hroom : 8 * p1.out + 8 * 1 ≤ p1.olen
    · have hol1 := hi1.olen
      have hlen1 := hi1.len
      have hfit := G.fit
      by_cases hn : 8 * p1.out + 8 ≤ p1.buf.length
      swap
      · rw [M.bind_ok (oclRoom_ok hroom), M.bind_def, oclPut_ub (by simp; omega)]
        refine .ub_of (op := .zeros) trivial hr1 (.inr ?_) .zeros ?_
        · rw [← hb1]; omega
        · show G.cap < _
          rw [← houtp, List.length_append, List.length_replicate]
          omega
      obtain ⟨p3, h3, hi3, hf3, ho3, hout3⟩ := oclPut_ok hi1 (bs := List.replicate 8 0#8) (by simp)
        (by omega)
      rw [M.bind_ok (oclRoom_ok hroom), M.bind_ok h3]
      refine .op (op := .zeros) hi3 (fun hk => hf3.fut hi1 hf1 hk) trivial rfl ?_ ?_
      · rw [hf3.rest_eq]; exact hr1
      · rw [hout3, houtp]; exact .zeros
    · rw [M.bind_err (oclRoom_full hroom)]
      refine .full (op := .zeros) trivial rfl hr1 .zeros ?_ hi1.e
      have := hi1.olen
      have := G.fit
      show G.cap < _
      rw [← houtp, List.length_append, hl1, List.length_replicate]
      omega
  rw [if_neg h1c]
  by_cases h1e : v.toNat = 0x1E
  · rw [if_pos h1e]
    rw [h1e] at hr1
    exact .fin hi1 hf1 houtp hr1
  rw [if_neg h1e]
  by_cases h19 : v.toNat = 26 - 1
  · rw [if_pos h19]
    rw [h19] at hr1
    exact oclI8_step hi1 hf1 hb1 ho1 hr1
  rw [if_neg h19]
  by_cases hlt : v.toNat < 25
  · exact oclDoOp_step hlt hi1 hf1 hb1 ho1 hr1
  · unfold oclDoOp
    rw [if_pos (by omega)]
    refine .bad_of hr1 hv' h1e hi1.e fun op R o hval hsh hc _ _ => ?_
    cases op with
    | rep n => simp only [opCode] at hc; omega
    | template code args => have := (templates_ok code _ hval.1).1; simp only [opCode] at hc; omega
    | zeros => simp only [opCode] at hc; omega
    | short => cases hsh

theorem oclIter_ok (G : OclG) : G.dec.Ok (oclIter G.e) where
  fits p hp := by
    have := hp.out
    have h : (G.dec.outp p).length = 8 * p.out := hp.length_outp
    show _ ≤ G.cap
    omega
  step p hp := oclIter_step hp.1 hp.2

/-! ## The whole function -/

/-- Constants of the call `oclCore e src ioff ilen buf olen`. -/
def oclG (e : Endian) (src : Option (List Byte)) (ioff ilen : Nat) (buf : List Byte) (olen : Nat)
    (hin : 8 * ioff + 8 * ((ilen + 7) / 8) ≤ (src.getD buf).length) : OclG where
  e := e
  src := src
  ioff := ioff
  ilen := ilen
  olen := olen
  orig := (src.getD buf).drop (8 * ioff)
  buf0 := buf
  pad := by intro j hj; simp; omega
  cap := min olen buf.length
  fit := rfl

theorem load64_at_drop (e : Endian) (m : List Byte) (i j : Nat) (h : i ≤ m.length) :
    load64 e (m.drop i) j = load64 e m (i + j) := by
  unfold load64 readBytes
  rw [List.drop_drop, List.length_drop]
  congr 1
  by_cases hj : j + 8 ≤ m.length - i
  · rw [if_pos hj, if_pos (by omega)]
  · rw [if_neg hj, if_neg (by omega)]

theorem oclInit_ok (e : Endian) (src : Option (List Byte)) (ioff ilen : Nat) (buf : List Byte) (olen : Nat)
    (hin : 8 * ioff + 8 * ((ilen + 7) / 8) ≤ (src.getD buf).length) :
    ∃ p, oclInit e (oclStart src ioff ilen buf olen) = some p ∧
      (oclG e src ioff ilen buf olen hin).dec.Inv p ∧
      (oclG e src ioff ilen buf olen hin).dec.outp p = [] ∧
      (oclG e src ioff ilen buf olen hin).dec.rest p =
        bytesBits (oclG e src ioff ilen buf olen hin).bytes := by
  obtain ⟨G, hG⟩ : ∃ G, oclG e src ioff ilen buf olen hin = G := ⟨_, rfl⟩
  have hld : ∀ j, 8 * j < ilen → (load64 e (src.getD buf) (8 * (ioff + j))).map (swapBe64 e) = some (G.wordAt j) := by
    intro j hj
    have hp : 8 * j + 8 ≤ G.orig.length := G.pad j (by rw [← hG]; exact hj)
    obtain ⟨v, h1, -⟩ := load64_word G.e hp
    unfold OclG.wordAt
    rw [h1, if_pos (by rw [← hG]; exact hj)]
    rw [← hG] at h1
    have h2 : load64 e ((src.getD buf).drop (8 * ioff)) (8 * j) = some v := h1
    rw [load64_at_drop _ _ _ _ (by omega), ← Nat.mul_add] at h2
    rw [h2, ← hG]; rfl
  have hf : ∀ k, oclFetch e k (oclStart src ioff ilen buf olen) = some (G.wordAt k) := by
    intro k
    unfold oclFetch
    by_cases h : ((oclStart src ioff ilen buf olen).word + k) * 8 < (oclStart src ioff ilen buf olen).ilen
    · have := hld k (by simp only [oclStart] at h; omega)
      rw [if_pos h]
      show Option.map _ (load64 e (src.getD buf) (8 * (ioff + 0 + k))) = _
      rw [Nat.add_zero]
      exact this
    · rw [if_neg h]
      unfold OclG.wordAt
      rw [if_neg (by rw [← hG]; simp only [oclG]; simp only [oclStart] at h; omega)]
  unfold oclInit
  simp only [hf]
  rw [hG]
  refine ⟨_, rfl, ⟨?_, ?_⟩, rfl, ?_⟩
  · subst hG
    exact ⟨rfl, rfl, rfl, rfl, rfl, rfl, by simp [oclStart], ⟨0, Win.zero⟩, by simp [oclStart], by simp [oclStart]⟩
  · intro j _ hj
    subst hG
    exact hld j hj
  · show winBits 0#64 0 ++ _ = _
    simp [winBits, bitsOf, oclStart]

/-- `input` starts with an op sequence of the hardware format that expands to `data`,
followed by the end marker and at least 32 more bits. -/
def OpsDecode (input data : List Byte) : Prop :=
  ∃ ops rest, Expands ops data ∧ (∀ op ∈ ops, op.isShort = false) ∧ 32 ≤ rest.length ∧
    bytesBits input = ops.flatMap Op.bits ++ (bitsOf 5 0x1e ++ rest)

theorem opsDecode_of_hw {input data : List Byte} (h : HwDecodes input data) : OpsDecode input data := by
  obtain ⟨ops, rest, h1, h2, h3⟩ := h
  exact ⟨ops, bitsOf 32 (crc data).toNat ++ rest, h1, h2, by simp, by rw [h3, trailer]; simp⟩

/-- Words of the input used after `b` bits. -/
def wordsUsed (b : Nat) : Nat := (b + 63) / 64

theorem oclRest_word {G : OclG} {p : OclP} (hp : G.WInv p) {b : Nat}
    (h : b + (G.dec.rest p).length = 64 * (G.ilen / 8)) : p.word = wordsUsed b := by
  have hr : (G.dec.rest p).length = p.bits + (64 * (G.ilen / 8) - 64 * p.word) := by
    show (winBits _ _ ++ (bytesBits G.bytes).drop _).length = _
    simp [G.length_bytes]; omega
  have hw := hp.word
  obtain ⟨a, ha⟩ := hp.win
  have := ha.1
  unfold wordsUsed
  omega

/-- The bits after the end marker. -/
theorem oclCrc {G : OclG} {p : OclP} (hp : G.dec.Inv p) :
    (∃ p', (oclReadBits G.e 32 >>= fun _ => M.get >>= fun p => pure (p.out * 8)) p = .ok (p.out * 8) p' ∧
      p'.buf = p.buf ∧ 32 ≤ (G.dec.rest p).length) ∨
    ((oclReadBits G.e 32 >>= fun _ => M.get >>= fun p => pure (p.out * 8)) p = .err .EINVAL p ∧
      (G.dec.rest p).length < 32) := by
  rcases oclReadBits_spec (G := G) (n := 32) (by omega) (by omega) hp.1 hp.2 with
    ⟨v, p1, h1, hi1, hf1, hb1, ho1, hv, hr1⟩ | ⟨h1, hlt⟩
  · left
    refine ⟨p1, ?_, hb1, by rw [hr1]; simp⟩
    rw [M.bind_ok h1, M.get_bind_apply, ho1]; rfl
  · right
    exact ⟨by rw [M.bind_err h1], hlt⟩

/-- A well-formed stream is decoded when the output fits; with `src = none` (in place)
provided the output never overtakes the words that have not been fetched. -/
theorem oclCore_of (e : Endian) (src : Option (List Byte)) (ioff ilen : Nat) (buf : List Byte) (olen : Nat)
    (hin : 8 * ioff + 8 * ((ilen + 7) / 8) ≤ (src.getD buf).length)
    {ops : List Op} {data : List Byte} {rest : List Bool} (hx : Expands ops data)
    (hs : ∀ op ∈ ops, op.isShort = false) (hr : 32 ≤ rest.length)
    (hb : bytesBits (((src.getD buf).drop (8 * ioff)).take (8 * (ilen / 8))) =
      ops.flatMap Op.bits ++ (bitsOf 5 0x1e ++ rest))
    (hd : data.length ≤ olen) (hdb : data.length ≤ buf.length)
    (hk : src ≠ none ∨ ∀ pre post o, ops = pre ++ post → Run [] pre o →
      o.length ≤ 8 * (ioff + wordsUsed (pre.flatMap Op.bits).length + 6) ∨
      ilen ≤ 8 * (wordsUsed (pre.flatMap Op.bits).length + 6)) :
    ∃ b, oclCore e src ioff ilen buf olen = .ret none data.length b ∧ b.length = buf.length ∧
      b.take data.length = data ∧ b.drop data.length = buf.drop data.length := by
  obtain ⟨p0, h0, hinv, ho0, hr0⟩ := oclInit_ok e src ioff ilen buf olen hin
  obtain ⟨G, hG⟩ : ∃ G, oclG e src ioff ilen buf olen hin = G := ⟨_, rfl⟩
  rw [hG] at hinv ho0 hr0
  have hGb : G.bytes = ((src.getD buf).drop (8 * ioff)).take (8 * (ilen / 8)) := by rw [← hG]; rfl
  have hGe : G.e = e := by rw [← hG]; rfl
  have hGi : G.ilen = ilen := by rw [← hG]; rfl
  have hGo : G.olen = olen := by rw [← hG]; rfl
  have hGs : G.src = src := by rw [← hG]; rfl
  have hGf : G.ioff = ioff := by rw [← hG]; rfl
  have hG0 : G.buf0 = buf := by rw [← hG]; rfl
  have hcap : G.cap = min olen buf.length := by rw [← hG]; rfl
  rw [← hGb] at hb
  have hlen : ∀ ops : List Op, 5 * ops.length ≤ (ops.flatMap Op.bits).length := by
    intro ops
    induction ops with
    | nil => simp
    | cons op ops ih => have := five_le_bits op; simp only [List.length_cons, List.flatMap_cons, List.length_append]; omega
  have htot : (bytesBits G.bytes).length = 64 * (ilen / 8) := by rw [length_bytesBits, G.length_bytes, hGi]; omega
  have hbl := congrArg List.length hb
  rw [htot] at hbl
  simp only [List.length_append, length_bitsOf] at hbl
  have hfuel := hlen ops
  obtain ⟨p1, h1, hi1, ho1, hr1⟩ := (oclIter_ok G).loop_fit hx.1 hs hinv (R := rest) (by rw [hr0, hb])
    (data := data) (by rw [ho0]; exact hx.2) (by show _ ≤ G.cap; rw [hcap]; omega)
    (by
      intro p' pre post o he hne hrun hw hop hrp
      show G.src ≠ none ∨ _
      rcases hk with hk | hk
      · exact .inl (by rw [hGs]; exact hk)
      · right
        rw [ho0] at hrun
        have hcon := hk pre post o he hrun
        have hword : p'.word = wordsUsed (pre.flatMap Op.bits).length := by
          apply oclRest_word hw
          rw [hrp, hGi, ← htot, hb, he, List.flatMap_append]
          simp only [List.length_append]; omega
        have hol : (G.dec.outp p').length = 8 * p'.out := hw.length_outp
        rw [hop] at hol
        rw [hword, hGf, hGi, ← hol]
        exact hcon)
    (fuel := 8 * ilen + 1) (by omega)
  unfold oclCore
  rw [h0]
  simp only
  unfold oclBody
  rw [hGe] at h1
  rw [M.bind_ok h1]
  have hol : (G.dec.outp p1).length = 8 * p1.out := hi1.1.length_outp
  rcases oclCrc hi1 with ⟨p2, h2, hb2, -⟩ | ⟨-, hlt⟩
  · rw [hGe] at h2
    rw [show (oclReadBits e 32 >>= fun _crc => M.get >>= fun p => pure (p.out * 8)) p1 = _ from h2]
    refine ⟨p2.buf, ?_, ?_, ?_, ?_⟩
    · simp only; rw [← ho1, hol, Nat.mul_comm]
    · rw [hb2, hi1.1.len, hG0]
    · rw [hb2, ← ho1, hol]; rfl
    · have := hi1.1.frame
      rw [hG0] at this
      rw [hb2, ← ho1, hol]; exact this
  · rw [hr1] at hlt; omega

/-- Everything the decoder can do when it does not work in place. -/
inductive OclRes (inp buf : List Byte) (olen : Nat) : Call → Prop
  | ok {data b : List Byte} : OpsDecode inp data → data.length ≤ olen → b.length = buf.length →
      b.take data.length = data → b.drop data.length = buf.drop data.length → OclRes inp buf olen (.ret none data.length b)
  | full {ops : List Op} {o b : List Byte} {R : List Bool} : Expands ops o → (∀ op ∈ ops, op.isShort = false) →
      bytesBits inp = ops.flatMap Op.bits ++ R → olen < o.length →
      b.length = buf.length → b.drop olen = buf.drop olen → OclRes inp buf olen (.ret (some .ENOSPC) 0 b)
  | bad {b : List Byte} : (¬ ∃ data, OpsDecode inp data) →
      b.length = buf.length → b.drop olen = buf.drop olen → OclRes inp buf olen (.ret (some .EINVAL) 0 b)
  | ub : buf.length < 8 * (olen / 8) + 2 → OclRes inp buf olen .ub

theorem oclCore_res (e : Endian) (inp : List Byte) (ioff ilen : Nat) (buf : List Byte) (olen : Nat)
    (hin : 8 * ioff + 8 * ((ilen + 7) / 8) ≤ inp.length) (hout : olen ≤ buf.length) :
    OclRes ((inp.drop (8 * ioff)).take (8 * (ilen / 8))) buf olen (oclCore e (some inp) ioff ilen buf olen) := by
  obtain ⟨p0, h0, hinv, ho0, hr0⟩ := oclInit_ok e (some inp) ioff ilen buf olen hin
  obtain ⟨G, hG⟩ : ∃ G, oclG e (some inp) ioff ilen buf olen hin = G := ⟨_, rfl⟩
  rw [hG] at hinv ho0 hr0
  have hGb : G.bytes = (inp.drop (8 * ioff)).take (8 * (ilen / 8)) := by rw [← hG]; rfl
  have hGe : G.e = e := by rw [← hG]; rfl
  have hGi : G.ilen = ilen := by rw [← hG]; rfl
  have hGo : G.olen = olen := by rw [← hG]; rfl
  have hGs : G.src = some inp := by rw [← hG]; rfl
  have hG0 : G.buf0 = buf := by rw [← hG]; rfl
  have hGc : G.cap = olen := by rw [← hG]; simp only [oclG]; omega
  rw [← hGb]
  have htot : (bytesBits G.bytes).length = 64 * (ilen / 8) := by rw [length_bytesBits, G.length_bytes, hGi]; omega
  have hres := (oclIter_ok G).loop_res (fun p' => .inl (by rw [hGs]; simp)) (8 * ilen + 1) hinv
    (by rw [hr0, htot]; omega)
  rw [hGe] at hres
  unfold oclCore
  rw [h0]
  simp only
  unfold oclBody
  generalize hx : M.doWhile (oclIter e) (8 * ilen + 1) p0 = x at hres
  have hE : ∀ p, G.dec.E p → p.buf.length = buf.length ∧ p.buf.drop olen = buf.drop olen := by
    intro p h
    have h : p.buf.length = G.buf0.length ∧ p.buf.drop G.cap = G.buf0.drop G.cap := h
    rw [hGc, hG0] at h
    exact h
  cases hres with
  | @ok p1 ops hi1 hv hs hrest hrun =>
    rw [M.bind_ok hx]
    rw [ho0] at hrun
    rw [hr0] at hrest
    have hol : (G.dec.outp p1).length = 8 * p1.out := hi1.1.length_outp
    have hfit := (oclIter_ok G).fits p1 hi1.1
    have hcap : G.dec.cap = olen := hGc
    rcases oclCrc hi1 with ⟨p2, h2, hb2, h32⟩ | ⟨h2, hlt⟩
    · rw [hGe] at h2
      rw [show (oclReadBits e 32 >>= fun _crc => M.get >>= fun p => pure (p.out * 8)) p1 = _ from h2]
      obtain ⟨he1, he2⟩ := hE p1 hi1.1.e
      simp only
      rw [Nat.mul_comm, ← hol, hb2]
      exact .ok ⟨ops, _, ⟨hv, hrun⟩, hs, h32, hrest⟩ (by omega) he1 (by rw [hol]; rfl)
        (by rw [hol, hi1.1.frame, hG0])
    · rw [hGe] at h2
      rw [show (oclReadBits e 32 >>= fun _crc => M.get >>= fun p => pure (p.out * 8)) p1 = _ from h2]
      obtain ⟨he1, he2⟩ := hE p1 hi1.1.e
      refine .bad ?_ he1 he2
      rintro ⟨data, ops', rest', hx', hs', h32', hb'⟩
      rw [hb'] at hrest
      have := ops_bits_inj hx'.1 hv hrest
      rw [← this.2] at hlt
      omega
  | @full p1 ops o R hv hs hrest hrun hfull hE1 =>
    rw [M.bind_err hx]
    rw [ho0] at hrun
    rw [hr0] at hrest
    obtain ⟨he1, he2⟩ := hE p1 hE1
    have hcap : G.dec.cap = olen := hGc
    exact .full ⟨hv, hrun⟩ hs hrest (by omega) he1 he2
  | @bad p1 hno hE1 =>
    rw [M.bind_err hx]
    obtain ⟨he1, he2⟩ := hE p1 hE1
    refine .bad ?_ he1 he2
    rintro ⟨data, ops', rest', hx', hs', h32', hb'⟩
    rw [hr0, ho0] at hno
    exact hno ops' rest' data hx'.1 hs' hb' hx'.2
  | @ub p1 hi1 hu =>
    rw [M.bind_def, hx]
    refine .ub ?_
    have hu : p1.buf.length < 8 * p1.out + 2 ∨ p1.buf.length < 8 * (G.olen / 8) := hu
    have h1 := hi1.1.len
    have h2 := hi1.1.out
    rw [hG0] at h1
    rw [hGc] at h2
    rw [hGo] at hu
    omega

end Lib842
