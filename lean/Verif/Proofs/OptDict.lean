import Verif.SpecDict
import Verif.Proofs.OptCall
/-!
# The dictionary of the optimised compressor finds what it should
-/

namespace Lib842
open Spec

/-! ## Hashes -/

theorem bitsVal_append' (l m : List Bool) : bitsVal (l ++ m) = bitsVal l * 2 ^ m.length + bitsVal m := by
  induction m using List.reverseRecOn with
  | nil => simp [bitsVal]
  | append_singleton m b ih =>
    rw [← List.append_assoc, bitsVal_append_singleton, ih, bitsVal_append_singleton, List.length_append,
      List.length_singleton, Nat.pow_succ]
    generalize bitsVal l = a, 2 ^ m.length = p, bitsVal m = c, b.toNat = d
    rw [Nat.mul_add, Nat.mul_left_comm 2 a p, Nat.mul_comm 2 p]
    omega

theorem beNumber_eq (v : List Byte) : beNumber v = bitsVal (bytesBits v) := by
  induction v using List.reverseRecOn with
  | nil => rfl
  | append_singleton v b ih =>
    have h1 : beNumber (v ++ [b]) = 256 * beNumber v + b.toNat := by simp [beNumber]
    rw [h1, ih, bytesBits_append, bitsVal_append']
    have h2 : bytesBits [b] = bitsOf 8 b.toNat := by simp [bytesBits]
    have hb := b.isLt
    rw [h2, bitsVal_bitsOf, length_bitsOf, Nat.mod_eq_of_lt (by omega)]
    omega

/-- The hash of the `n` bytes at `o` -/
def hv (x : List Byte) (n o : Nat) : Nat := (hashOne (dictBits n) (dataAt x n o)).toNat

theorem dataAt_toNat {n : Nat} (hn : SizeOk n) {x : List Byte} {o : Nat} (ho : o + n ≤ x.length) :
    (dataAt x n o).toNat = beNumber (slice x o n) := by
  have hl : (bytesBits (slice x o n)).length = 8 * n := by
    rw [length_bytesBits, length_slice ho]
  have hlt := bitsVal_lt (bytesBits (slice x o n))
  rw [hl] at hlt
  rw [dataAt_eq hn, BitVec.toNat_setWidth, key, BitVec.toNat_ofNat, beNumber_eq,
    show 8 * n / 8 = n by omega, Nat.mod_eq_of_lt hlt, Nat.mod_eq_of_lt]
  refine Nat.lt_of_lt_of_le hlt (Nat.pow_le_pow_right (by omega) ?_)
  rcases hn with rfl | rfl | rfl <;> omega

theorem hv_eq {n : Nat} (hn : SizeOk n) {x : List Byte} {o : Nat} (ho : o + n ≤ x.length) :
    hv x n o = dictHash (slice x o n) := by
  unfold hv hashOne dictHash
  rw [BitVec.toNat_ushiftRight, BitVec.toNat_mul, dataAt_toNat hn ho, length_slice ho, Nat.shiftRight_eq_div_pow]
  rfl

/-! ## The invariant -/

theorem dataAt_slice {n : Nat} (hn : SizeOk n) {x : List Byte} {o o' : Nat} (h : slice x o n = slice x o' n) :
    dataAt x n o = dataAt x n o' := by
  rw [dataAt_eq hn, dataAt_eq hn]
  unfold key
  rw [show 8 * n / 8 = n by omega, h]

theorem slice_slice {x : List Byte} {p a n : Nat} (h : a + n ≤ 8) :
    slice x (p + a) n = slice (slice x p 8) a n := by
  unfold slice
  rw [List.drop_take, List.take_take, List.drop_drop]
  congr 1; omega

/-- None of the groups from the one of `r` up to `pos` is zero. -/
def NoZero (x : List Byte) (r pos : Nat) : Prop :=
  ∀ g, r / 8 ≤ g → 8 * g + 8 ≤ pos → slice x (8 * g) 8 ≠ List.replicate 8 0#8

structure OInv (T : OTab) (x : List Byte) (pos : Nat) : Prop where
  hashes : 8 ≤ pos → slice x (pos - 8) 8 ≠ List.replicate 8 0#8 → ∀ k, k < 7 →
    (T.hashes k).toNat = hv x (slotSize k) (pos - 8 + slotOff k)
  ht : ∀ n, SizeOk n → ∀ r, r % n = 0 → r + n ≤ pos → NoZero x r pos →
    (∀ r', r < r' → r' % n = 0 → r' + n ≤ pos → hv x n r' ≠ hv x n r) →
    T.ht n (hv x n r) = BitVec.ofNat 16 (r / n % 2 ^ indexBits n)

theorem OInv.init (x : List Byte) : OInv .init x 0 where
  hashes := by omega
  ht := by intro n hn r _ hr; rcases hn with rfl | rfl | rfl <;> omega

theorem OInv.next {T T1 : OTab} {x : List Byte} {pos : Nat} (h : OInv T x pos) (h8 : pos % 8 = 0)
    (h16 : T1.ht16 = T.ht16) (h32 : T1.ht32 = T.ht32) (h64 : T1.ht64 = T.ht64)
    (hh : slice x pos 8 ≠ List.replicate 8 0#8 → ∀ k, k < 7 →
      (T1.hashes k).toNat = hv x (slotSize k) (pos + slotOff k)) :
    OInv (T1.next pos) x (pos + 8) where
  hashes := by
    intro _ hz k hk
    rw [Nat.add_sub_cancel] at hz ⊢
    exact hh hz k hk
  ht := by
    intro n hn r hr hle hz hlast
    have hnz : slice x pos 8 ≠ List.replicate 8 0#8 := by
      have := hz (pos / 8) (by rcases hn with rfl | rfl | rfl <;> omega) (by omega)
      rwa [show 8 * (pos / 8) = pos by omega] at this
    have hk := hh hnz
    have hz' : NoZero x r pos := fun g hg hp => hz g hg (by omega)
    have hlast' : ∀ r', r < r' → r' % n = 0 → r' + n ≤ pos → hv x n r' ≠ hv x n r :=
      fun r' h1 h2 h3 => hlast r' h1 h2 (by omega)
    have hold := h.ht n hn r hr
    rcases hn with rfl | rfl | rfl
    · -- 2 bytes
      have k0 := hk 0 (by omega)
      have k1 := hk 1 (by omega)
      have k2 := hk 2 (by omega)
      have k3 := hk 3 (by omega)
      simp only [slotSize, slotOff, show (0 : Nat) < 4 by omega, show (1 : Nat) < 4 by omega,
        show (2 : Nat) < 4 by omega, show (3 : Nat) < 4 by omega, if_true] at k0 k1 k2 k3
      simp only [OTab.ht, if_true] at hold ⊢
      simp only [OTab.next, k0, k1, k2, k3, upd, h16, indexBits, show (2 : Nat) ≠ 4 by omega, if_false] at hold ⊢
      by_cases hr0 : r < pos
      · have d0 := hlast (pos + 2 * 0) (by omega) (by omega) (by omega)
        have d1 := hlast (pos + 2 * 1) (by omega) (by omega) (by omega)
        have d2 := hlast (pos + 2 * 2) (by omega) (by omega) (by omega)
        have d3 := hlast (pos + 2 * 3) (by omega) (by omega) (by omega)
        rw [if_neg d3.symm, if_neg d2.symm, if_neg d1.symm, if_neg d0.symm]
        exact hold (by omega) hz' hlast'
      · obtain ⟨j, hj, rfl⟩ : ∃ j, j < 4 ∧ r = pos + 2 * j := ⟨(r - pos) / 2, by omega, by omega⟩
        have d1 := fun h => hlast (pos + 2 * 1) h (by omega) (by omega)
        have d2 := fun h => hlast (pos + 2 * 2) h (by omega) (by omega)
        have d3 := fun h => hlast (pos + 2 * 3) h (by omega) (by omega)
        have e : (pos + 2 * j) / 2 % 2 ^ 8 = pos / 2 % 256 + j := by omega
        rw [e]
        interval_cases j
        · rw [if_neg (d3 (by omega)).symm, if_neg (d2 (by omega)).symm, if_neg (d1 (by omega)).symm, if_pos rfl]; rfl
        · rw [if_neg (d3 (by omega)).symm, if_neg (d2 (by omega)).symm, if_pos rfl]
        · rw [if_neg (d3 (by omega)).symm, if_pos rfl]
        · rw [if_pos rfl]
    · -- 4 bytes
      have k0 := hk 4 (by omega)
      have k1 := hk 5 (by omega)
      simp only [slotSize, slotOff, show ¬ (4 : Nat) < 4 by omega, show ¬ (5 : Nat) < 4 by omega,
        show (4 : Nat) < 6 by omega, show (5 : Nat) < 6 by omega, if_true, if_false] at k0 k1
      simp only [OTab.ht, show (4 : Nat) ≠ 2 by omega, if_true, if_false] at hold ⊢
      simp only [OTab.next, k0, k1, upd, h32, indexBits, if_true] at hold ⊢
      by_cases hr0 : r < pos
      · have d0 := hlast (pos + 4 * (4 - 4)) (by omega) (by omega) (by omega)
        have d1 := hlast (pos + 4 * (5 - 4)) (by omega) (by omega) (by omega)
        rw [if_neg d1.symm, if_neg d0.symm]
        exact hold (by omega) hz' hlast'
      · obtain ⟨j, hj, rfl⟩ : ∃ j, j < 2 ∧ r = pos + 4 * j := ⟨(r - pos) / 4, by omega, by omega⟩
        have d1 := fun h => hlast (pos + 4 * (5 - 4)) h (by omega) (by omega)
        have e : (pos + 4 * j) / 4 % 2 ^ 9 = pos / 4 % 512 + j := by omega
        rw [e]
        interval_cases j
        · rw [if_neg (d1 (by omega)).symm, if_pos rfl]; rfl
        · rw [if_pos rfl]
    · -- 8 bytes
      have k0 := hk 6 (by omega)
      simp only [slotSize, slotOff, show ¬ (6 : Nat) < 4 by omega, show ¬ (6 : Nat) < 6 by omega, if_false] at k0
      simp only [OTab.ht, show (8 : Nat) ≠ 2 by omega, show (8 : Nat) ≠ 4 by omega, if_false] at hold ⊢
      simp only [OTab.next, k0, upd, h64, indexBits, show (8 : Nat) ≠ 4 by omega, if_false, Nat.add_zero] at hold ⊢
      by_cases hr0 : r < pos
      · have d0 := hlast pos (by omega) (by omega) (by omega)
        rw [if_neg d0.symm]
        exact hold (by omega) hz' hlast'
      · have : r = pos := by omega
        subst this
        rw [if_pos rfl]; rfl

theorem rehash_hashes (T : OTab) (x : List Byte) (pos k : Nat) (hk : k < 7) :
    ((T.rehash x pos).hashes k).toNat = hv x (slotSize k) (pos + slotOff k) := by
  simp only [OTab.rehash, if_pos hk]; rfl

theorem OInv.step {T : OTab} {x : List Byte} {pos rc : Nat} (h : OInv T x pos) (h8 : pos % 8 = 0)
    {last : Option (List Byte)} (hlast : last = if pos = 0 then none else some (slice x (pos - 8) 8)) :
    OInv ((orefStep T x pos last rc).2.2.next pos) x (pos + 8) := by
  have hrep : ∀ (hl : some (slice x pos 8) = last) (hz : slice x pos 8 ≠ List.replicate 8 0#8), ∀ k, k < 7 →
      (T.hashes k).toNat = hv x (slotSize k) (pos + slotOff k) := by
    intro hl hz k hk
    rw [hlast] at hl
    by_cases h0 : pos = 0
    · rw [if_pos h0] at hl; cases hl
    · rw [if_neg h0] at hl
      have he := Option.some.inj hl
      rw [h.hashes (by omega) (by rw [← he]; exact hz) k hk]
      unfold hv
      rw [dataAt_slice (slotSize_ok hk)]
      rw [slice_slice (slot_fits hk), slice_slice (slot_fits hk), he]
  unfold orefStep
  simp only
  split
  · rename_i hl
    split
    · exact h.next h8 rfl rfl rfl (hrep hl)
    · exact h.next h8 rfl rfl rfl (hrep hl)
  · split
    · rename_i hz
      exact h.next h8 rfl rfl rfl (fun hn => absurd hz hn)
    · exact h.next h8 rfl rfl rfl (fun _ k hk => rehash_hashes T x pos k hk)

/-! ## Retrievable values are found -/

theorem exists_last {P : Nat → Prop} [DecidablePred P] {r B : Nat} (hr : P r) (hB : ∀ r, P r → r ≤ B) :
    ∃ m, r ≤ m ∧ P m ∧ ∀ r', m < r' → ¬ P r' := by
  refine ⟨Nat.findGreatest P B, Nat.le_findGreatest (hB r hr) hr, Nat.findGreatest_spec (hB r hr) hr, ?_⟩
  intro r' h1 h2
  exact absurd (Nat.le_findGreatest (hB r' h2) h2) (by omega)

theorem OInv.find {T : OTab} {x : List Byte} {pos : Nat} (h : OInv T x pos) (h8 : pos % 8 = 0)
    (hpos : pos ≤ x.length) {n o : Nat} (hn : SizeOk n) (ho : o + n ≤ x.length)
    (hret : Retrievable (x.take pos) (slice x o n)) : (T.find x pos n o).isSome = true := by
  have hlen : (x.take pos).length = pos := by rw [List.length_take, Nat.min_eq_left hpos]
  have hvl : (slice x o n).length = n := length_slice ho
  obtain ⟨r, hr, hrp, hwin, hval, hcol, hz⟩ := hret
  rw [hlen] at hrp hwin hcol
  rw [hvl] at hr hrp hwin hval hcol
  have hst : ∀ r, r + n ≤ pos → ((x.take pos).drop r).take n = slice x r n := fun r h => slice_take h
  rw [hst r hrp] at hval
  -- the last occurrence
  obtain ⟨m, hrm, ⟨hm0, hmp, hmv⟩, hmax⟩ := exists_last (P := fun r => r % n = 0 ∧ r + n ≤ pos ∧ slice x r n = slice x o n)
    (r := r) (B := pos) ⟨hr, hrp, hval⟩ (fun r h => by omega)
  have hzm : NoZero x m pos := by
    intro g hg hp
    have := hz g (Nat.le_trans (Nat.div_le_div_right hrm) hg) (by rw [hlen]; exact hp)
    rwa [show ((x.take pos).drop (8 * g)).take 8 = slice x (8 * g) 8 from slice_take hp] at this
  have hhm : hv x n m = hv x n o := by
    rw [hv_eq hn (by omega), hv_eq hn ho, hmv]
  have hcolm : ∀ r', m < r' → r' % n = 0 → r' + n ≤ pos → hv x n r' ≠ hv x n m := by
    intro r' h1 h2 h3 heq
    refine hmax r' h1 ⟨h2, h3, ?_⟩
    have := hcol r' (by omega) h2 h3
    rw [hst r' h3] at this
    apply this
    rw [hhm, hv_eq hn (by omega), hv_eq hn ho] at heq
    exact heq
  have hht := h.ht n hn m hm0 hmp hzm hcolm
  have hidx : m / n % 2 ^ indexBits n < 2 ^ indexBits n := Nat.mod_lt _ (Nat.pow_pos (by omega))
  have hib : 2 ^ indexBits n ≤ 512 := by unfold indexBits; split <;> norm_num
  have htn : (BitVec.ofNat 16 (m / n % 2 ^ indexBits n)).toNat = m / n % 2 ^ indexBits n := by
    rw [BitVec.toNat_ofNat, Nat.mod_eq_of_lt (by omega)]
  unfold OTab.find hit
  simp only
  rw [show (hashOne (dictBits n) (dataAt x n o)).toNat = hv x n o from rfl, ← hhm, hht, if_pos]
  · rfl
  · refine ⟨toInt_nonneg (by rw [htn]; omega), ?_⟩
    rw [htn, slots_some hn h8]
    refine ⟨hidx, m, ⟨?_, by omega, by omega⟩, ?_⟩
    · unfold ringSize
      rw [Nat.mul_comm (m / n % 2 ^ indexBits n) n, Nat.mod_mul, hm0, Nat.zero_add]
    · unfold key
      rw [show 8 * n / 8 = n by omega, hmv]

/-! ## The chosen template -/

/-- If the values that arguments refer to are retrievable, the slots they need are valid. -/
theorem needs_valid {T : OTab} {x : List Byte} {pos : Nat} (h : OInv T x pos) (h8 : pos % 8 = 0)
    (hpos : pos + 8 ≤ x.length) {args : List Arg} (hok : ∀ a ∈ args, ActionOk a.action) {b : Nat}
    (hb : b + sumSizes (args.map Arg.action) = 8) (hoff : offsOk (args.map Arg.action) b = true)
    (hret : ∀ v ∈ referenced args (slice x (pos + b) (8 - b)), Retrievable (x.take pos) v) :
    (needs (args.map Arg.action) b).all (T.valid x pos) = true := by
  induction args generalizing b with
  | nil => rfl
  | cons a args ih =>
    have hok' : ∀ a ∈ args, ActionOk a.action := fun a ha => hok a (List.mem_cons_of_mem _ ha)
    have hoka := hok a (List.mem_cons_self ..)
    simp only [sumSizes, List.map_cons, List.sum_cons] at hb
    have hdrop : ∀ m, b + m ≤ 8 → (slice x (pos + b) (8 - b)).drop m = slice x (pos + (b + m)) (8 - (b + m)) := by
      intro m hm
      unfold slice
      rw [List.drop_take, List.drop_drop]
      congr 1
      · omega
      · congr 1; omega
    cases a with
    | data d =>
      simp only [List.map_cons, Arg.action, offsOk, needs, actionSize] at hoff hb ⊢
      rw [referenced, hdrop _ (by omega)] at hret
      exact ih hok' (by unfold sumSizes; omega) hoff hret
    | index n i =>
      simp only [List.map_cons, Arg.action, offsOk, needs, actionSize] at hoff hb ⊢
      have hn : SizeOk n := hoka
      rw [referenced, hdrop _ (by omega)] at hret
      simp only [Bool.and_eq_true, decide_eq_true_eq, beq_iff_eq] at hoff
      rw [List.all_cons, ih hok' (by unfold sumSizes; omega) hoff.2 (fun v hv => hret v (List.mem_cons_of_mem _ hv)),
        Bool.and_true]
      unfold OTab.valid
      rw [hoff.1.1.2, hoff.1.2]
      refine h.find h8 (by omega) hn (by omega) ?_
      have := hret _ (List.mem_cons_self ..)
      have he : (slice x (pos + b) (8 - b)).take n = slice x (pos + b) n := by
        unfold slice
        rw [List.take_take, Nat.min_eq_left (by omega)]
      rwa [he] at this

/-- No template that takes only retrievable values from the ring buffers is shorter. -/
def CheapestRet (out : List Byte) (op : Op) : Prop :=
  ∀ out', OpStep out op out' → ∀ code args, (Op.template code args).Valid →
    OpStep out (.template code args) out' →
    (∀ v ∈ referenced args (out'.drop out.length), Retrievable out v) →
    op.bits.length ≤ (Op.template code args).bits.length

theorem OTab.blockOp_bits (T : OTab) {x : List Byte} {pos : Nat} (h8 : pos % 8 = 0) (hpos : pos + 8 ≤ x.length) :
    (T.blockOp x pos).bits.length = codeBits (codeOf (T.valid x pos)) := by
  obtain ⟨hv, -, -, -⟩ := T.blockOp_ok h8 hpos
  unfold OTab.blockOp at hv ⊢
  rw [template_bits_length, ← codeBits_of hv.1]

theorem OInv.cheapest {T : OTab} {x : List Byte} {pos : Nat} (h : OInv T x pos) (h8 : pos % 8 = 0)
    (hpos : pos + 8 ≤ x.length) : CheapestRet (x.take pos) (T.blockOp x pos) := by
  intro out' hs code args hv hs' hret
  obtain ⟨hval, -, hstep, -⟩ := T.blockOp_ok h8 hpos
  obtain rfl := OpStep.det hval hs hstep
  obtain ⟨hclt, hok, hsum, -⟩ := templates_ok _ _ hv.1
  rw [T.blockOp_bits h8 hpos, template_bits_length, ← codeBits_of hv.1]
  refine (codeOf_ok (T.valid x pos)).2.2.2 code hclt ?_
  have ht := getD_templates hclt
  rw [hv.1] at ht
  have hacts := Option.some.inj ht
  rw [← hacts]
  refine needs_valid h h8 hpos (fun a ha => hok _ (List.mem_map_of_mem ha)) (by omega)
    (by rw [hacts]; exact offsOk_templates _ hclt) ?_
  have hl : (x.take pos).length = pos := by rw [List.length_take, Nat.min_eq_left (by omega)]
  have : (x.take (pos + 8)).drop (x.take pos).length = slice x (pos + 0) (8 - 0) := by
    rw [hl, List.drop_take]; unfold slice; congr 1; omega
  rw [← this]; exact hret

/-! ## The whole op sequence -/

def OBlockBest (out : List Byte) (op : Op) : Prop :=
  OBlockGood out op ∧ ∀ code args, op = .template code args → CheapestRet out op

theorem LInv.bflush {x pos last rc out} (h : LInv x pos last rc out) (h8 : pos % 8 = 0)
    (hpos : pos ≤ x.length) : RunP OBlockBest out (repOps rc) (x.take pos) := by
  have := h.oflush h8 hpos
  unfold repOps at this ⊢
  split
  · rename_i hz; rw [if_pos hz] at this; cases this; exact .nil
  · rename_i hz
    rw [if_neg hz] at this
    cases this with
    | cons hp hs hr => cases hr; exact .single ⟨hp, by intro _ _ h; cases h⟩ hs

theorem orefLoop_best (x : List Byte) (k : Nat) {T : OTab} {pos : Nat} {last : Option (List Byte)} {rc : Nat}
    {out : List Byte} (h8 : pos % 8 = 0) (hpos : pos + 8 * k ≤ x.length)
    (hi : LInv x pos last rc out) (ho : OInv T x pos)
    (hlast : last = if pos = 0 then none else some (slice x (pos - 8) 8)) :
    RunP OBlockBest out (orefLoop x k T pos last rc) (x.take (pos + 8 * k)) := by
  induction k generalizing T pos last rc out with
  | zero => exact hi.bflush h8 (by omega)
  | succ k ih =>
    rw [orefLoop]
    rw [show pos + 8 * (k + 1) = (pos + 8) + 8 * k by omega]
    have hnext : x.take (pos + 8) = x.take pos ++ slice x pos 8 := take_append_slice x pos 8
    have hsl : (slice x pos 8).length = 8 := length_slice (by omega)
    have hlp : (x.take pos).length % 8 = 0 := by simp; omega
    have hfresh : LInv x (pos + 8) (some (slice x pos 8)) 0 (x.take (pos + 8)) := by
      refine ⟨by simp, by simp, ?_, by omega⟩
      intro blk hb
      obtain rfl := Option.some.inj hb
      refine ⟨by simp; omega, ?_⟩
      rw [hnext, List.length_append, hsl, Nat.add_sub_cancel]; simp
    have hstep' := ho.step (rc := rc) h8 hlast
    have hlast' : some (slice x pos 8) = if pos + 8 = 0 then none else some (slice x (pos + 8 - 8) 8) := by
      rw [if_neg (by omega), Nat.add_sub_cancel]
    revert hstep'
    unfold orefStep
    simp only
    intro hstep'
    by_cases heq : some (slice x pos 8) = last
    · rw [if_pos heq] at hstep' ⊢
      obtain ⟨hl8, hblk⟩ := hi.last _ heq.symm
      by_cases hrc : rc + 1 ≤ 0x3f
      · rw [if_pos hrc] at hstep' ⊢
        simp only [List.nil_append]
        refine ih (by omega) (by omega) ⟨?_, fun _ => hl8, ?_, hrc⟩ hstep' hlast'
        · rw [hnext, ← hi.pend, List.replicate_succ', List.flatten_append, List.append_assoc, hblk]
          simp
        · intro blk hb
          obtain rfl := Option.some.inj hb
          exact ⟨hl8, hblk⟩
      · rw [if_neg hrc] at hstep' ⊢
        have hrc63 : rc = 63 := by have := hi.rc; omega
        have hstep := OpStep.rep (out := out) (n := rc) hl8
        have hres : out ++ (List.replicate (rc + 1) (out.drop (out.length - 8))).flatten = x.take (pos + 8) := by
          rw [hnext, ← hi.pend, List.replicate_succ', List.flatten_append, List.append_assoc, hblk]
          simp
        rw [hres] at hstep
        have hlen := congrArg List.length hi.pend
        rw [List.length_append, flatten_len8 out hl8, List.length_take, Nat.min_eq_left (by omega)] at hlen
        refine .append (.single ⟨⟨?_, rfl, by omega⟩, by intro _ _ h; cases h⟩ hstep)
          (ih (by omega) (by omega) hfresh hstep' hlast')
        show rc < 64; omega
    · rw [if_neg heq] at hstep' ⊢
      have hfl := hi.bflush h8 (by omega)
      by_cases hz : slice x pos 8 = List.replicate 8 0#8
      · rw [if_pos hz] at hstep' ⊢
        refine .append (.append hfl (.single ⟨⟨trivial, rfl, hlp⟩, by intro _ _ h; cases h⟩ ?_))
          (ih (by omega) (by omega) hfresh hstep' hlast')
        rw [hnext, hz]; exact .zeros
      · rw [if_neg hz] at hstep' ⊢
        obtain ⟨hv, hns, hst, -⟩ := T.blockOp_ok (x := x) h8 (by omega)
        exact .append (.append hfl (.single ⟨⟨hv, hns, hlp⟩, fun _ _ _ => ho.cheapest h8 (by omega)⟩ hst))
          (ih (by omega) (by omega) hfresh hstep' hlast')

theorem orefOps_best {x : List Byte} (h : x.length % 8 = 0) : RunP OBlockBest [] (orefOps x) x := by
  have := orefLoop_best x (x.length / 8) (T := .init) (pos := 0) (last := none) (rc := 0) (out := [])
    rfl (by omega) ⟨by simp, by simp, by simp, by omega⟩ (.init x) rfl
  rwa [Nat.zero_add, List.take_of_length_le (by omega)] at this

/-! ## Comparison with the serial compressor -/

theorem Tab.blockOp_template (T : Tab) (x : List Byte) (pos : Nat) :
    ∃ code args, T.blockOp x pos = .template code args := by
  have h0 : ∃ op, tryOrder.findSome? (T.tryCode x pos) = some op := by
    rw [← Option.isSome_iff_exists, List.findSome?_isSome_iff]
    exact ⟨0, by decide, by simp [Tab.tryCode, templates, Tab.args, Tab.arg]⟩
  obtain ⟨op, hop⟩ := h0
  obtain ⟨l1, code, l2, hl, hc, hno⟩ := List.findSome?_eq_some_iff.1 hop
  unfold Tab.blockOp
  rw [hop, Option.getD_some]
  unfold Tab.tryCode at hc
  split at hc
  · cases hc
  · simp only [Option.map_eq_some_iff] at hc
    obtain ⟨args, -, rfl⟩ := hc
    exact ⟨_, _, rfl⟩

theorem OTab.blockOp_template (T : OTab) (x : List Byte) (pos : Nat) :
    ∃ code args, T.blockOp x pos = .template code args := ⟨_, _, rfl⟩

/-- The serial compressor is at least as good. -/
theorem blockOp_le {T : Tab} {U : OTab} {x : List Byte} {pos : Nat} (h : T.Rep x pos) (h8 : pos % 8 = 0)
    (hpos : pos + 8 ≤ x.length) : (T.blockOp x pos).bits.length ≤ (U.blockOp x pos).bits.length := by
  obtain ⟨-, -, hs, -, hc⟩ := h.blockOp h8 hpos
  obtain ⟨hv, -, hs', -⟩ := U.blockOp_ok h8 hpos
  obtain ⟨code, args, he⟩ := U.blockOp_template x pos
  rw [he] at hv hs' ⊢
  exact hc _ hs code args hv hs'

/-- Without collisions and zero groups all values that can be referenced are retrievable. -/
theorem referenced_ret {x : List Byte} {pos : Nat} (h8 : pos % 8 = 0) (hpos : pos + 8 ≤ x.length)
    (hcol : NoCollisions x) (hz : NoZeroGroup x 0) {args : List Arg} (hok : ∀ a ∈ args, ActionOk a.action)
    {b : Nat} (hb : b + sumSizes (args.map Arg.action) = 8)
    (hrun : ArgsRun (x.take (pos + b)) args (x.take (pos + 8))) :
    ∀ v ∈ referenced args (slice x (pos + b) (8 - b)), Retrievable (x.take pos) v := by
  induction args generalizing b with
  | nil => intro v hv; cases hv
  | cons a args ih =>
    have hok' : ∀ a ∈ args, ActionOk a.action := fun a ha => hok a (List.mem_cons_of_mem _ ha)
    have hoka := hok a (List.mem_cons_self ..)
    have hsz : SizeOk (actionSize a.action) := by cases a <;> exact hoka
    simp only [sumSizes, List.map_cons, List.sum_cons] at hb
    have hfit : pos + b + actionSize a.action ≤ x.length := by omega
    have hlen : (x.take (pos + b)).length = pos + b := by simp; omega
    have hdrop : ∀ m, b + m ≤ 8 → (slice x (pos + b) (8 - b)).drop m = slice x (pos + (b + m)) (8 - (b + m)) := by
      intro m hm
      unfold slice
      rw [List.drop_take, List.drop_drop]
      congr 1
      · omega
      · congr 1; omega
    cases hrun with
    | @cons _ _ o1 _ _ h1 h2 =>
      have hpre : ∀ {a b : List Byte} {as : List Arg}, ArgsRun a as b → a <+: b := by
        intro a b as hr
        induction hr with
        | nil => exact List.prefix_rfl
        | cons hs _ ih =>
          refine List.IsPrefix.trans ?_ ih
          cases hs <;> exact List.prefix_append ..
      have hp1 := hpre h2
      have ho1len : o1.length = pos + b + actionSize a.action := by
        cases h1 with
        | data => simp only [hlen, Arg.action, actionSize, List.length_append]
        | index href =>
          have := href.2.1
          rw [hlen] at this
          simp only [Arg.action, actionSize, List.length_append, List.length_take, List.length_drop]
          omega
      have ho1 : o1 = x.take (pos + (b + actionSize a.action)) := by
        have := List.prefix_iff_eq_take.1 hp1
        rw [this, List.take_take, ho1len]
        congr 1; omega
      have hrest := ih hok' (b := b + actionSize a.action) (by unfold sumSizes; omega) (by rw [← ho1]; exact h2)
      cases h1 with
      | @data d =>
        simp only [Arg.action, actionSize] at hrest hb
        rw [referenced, hdrop _ (by omega)]
        exact hrest
      | @index n i r href =>
        simp only [Arg.action, actionSize] at hrest hb hsz hfit
        rw [referenced, hdrop _ (by omega)]
        intro v hv
        rcases List.mem_cons.1 hv with rfl | hv
        swap
        · exact hrest v hv
        have he : (slice x (pos + b) (8 - b)).take n = slice x (pos + b) n := by
          unfold slice
          rw [List.take_take, Nat.min_eq_left (by omega)]
        rw [he]
        have hrl : RingRef pos n i r := by
          rw [hlen, RingRef_within h8 (by rcases hsz with h | h | h <;> omega)] at href
          exact href
        have hrp := RingRef_lt hrl
        have hval : slice x r n = slice x (pos + b) n := by
          rw [← Nat.add_assoc] at ho1
          simp only [Arg.action, actionSize] at ho1
          rw [take_append_slice x (pos + b)] at ho1
          have := List.append_cancel_left ho1
          rw [← slice, slice_take (by omega)] at this
          exact this
        have hl : (x.take pos).length = pos := by rw [List.length_take, Nat.min_eq_left (by omega)]
        have hvl : (slice x (pos + b) n).length = n := length_slice hfit
        have hst : ∀ r, r + n ≤ pos → ((x.take pos).drop r).take n = slice x r n := fun r h => slice_take h
        obtain ⟨q1, q2, q3⟩ := hrl
        have hr0 : r % n = 0 := by
          have hd : n ∣ ringSize n := ⟨2 ^ indexBits n, rfl⟩
          rw [← Nat.mod_mod_of_dvd r hd, q1, Nat.mul_mod_left]
        have hr0' : (pos + b) % n = 0 ∨ ¬ (pos + b) % n = 0 := Decidable.em _
        refine ⟨r, by rw [hvl]; exact hr0, by rw [hvl, hl]; omega, by rw [hvl, hl]; omega, ?_, ?_, ?_⟩
        · rw [hvl, hst r hrp, hval]
        · intro o' h1 h2 h3 h4
          rw [hvl] at h2 h3 h4 ⊢
          rw [hl] at h3
          rw [hst o' h3] at h4 ⊢
          rw [← hval] at h4 ⊢
          exact hcol n hsz o' r h2 hr0 (by omega) (by omega) h4
        · intro g _ hg
          rw [hl] at hg
          have := hz g (Nat.zero_le _) (by omega)
          rw [show ((x.take pos).drop (8 * g)).take 8 = slice x (8 * g) 8 from slice_take hg]
          exact this

theorem blockOp_ge {T : Tab} {U : OTab} {x : List Byte} {pos : Nat} (h : T.Rep x pos) (hU : OInv U x pos)
    (h8 : pos % 8 = 0) (hpos : pos + 8 ≤ x.length) (hcol : NoCollisions x) (hz : NoZeroGroup x 0) :
    (U.blockOp x pos).bits.length ≤ (T.blockOp x pos).bits.length := by
  obtain ⟨hv, -, hs, -, -⟩ := h.blockOp h8 hpos
  obtain ⟨-, -, hs', -⟩ := U.blockOp_ok h8 hpos
  obtain ⟨code, args, he⟩ := T.blockOp_template x pos
  rw [he] at hv hs ⊢
  refine hU.cheapest h8 hpos _ hs' code args hv hs ?_
  obtain ⟨-, hok, hsum, -⟩ := templates_ok _ _ hv.1
  have hl : (x.take pos).length = pos := by rw [List.length_take, Nat.min_eq_left (by omega)]
  have : (x.take (pos + 8)).drop (x.take pos).length = slice x (pos + 0) (8 - 0) := by
    rw [hl, List.drop_take]; unfold slice; congr 1; omega
  rw [this]
  cases hs with
  | template hr =>
    exact referenced_ret h8 hpos hcol hz (fun a ha => hok _ (List.mem_map_of_mem ha)) (by omega) hr

theorem refLoop_le (x : List Byte) (k : Nat) {T : Tab} {U : OTab} {pos : Nat} {last : Option (List Byte)} {rc : Nat}
    (hT : T.Rep x pos) (h8 : pos % 8 = 0) (hpos : pos + 8 * k ≤ x.length) :
    ((refLoop x k T pos last rc).flatMap Op.bits).length ≤ ((orefLoop x k U pos last rc).flatMap Op.bits).length := by
  induction k generalizing T U pos last rc with
  | zero => exact Nat.le_refl _
  | succ k ih =>
    rw [refLoop, orefLoop]
    have ih' := fun (V : OTab) (rc : Nat) => ih (U := V) (last := some (slice x pos 8)) (rc := rc) (hT.next h8)
      (by omega) (by omega)
    unfold refStep orefStep
    simp only
    split
    · split
      · exact ih' _ _
      · simp only [List.flatMap_append, List.length_append]
        have := ih' (U.next pos) 0
        omega
    · split
      · simp only [List.flatMap_append, List.length_append]
        have := ih' (U.next pos) 0
        omega
      · simp only [List.flatMap_append, List.length_append, List.flatMap_cons, List.flatMap_nil, List.append_nil]
        have := ih' ((U.rehash x pos).next pos) 0
        have := blockOp_le (U := U) hT h8 (by omega)
        omega

theorem refLoop_ge (x : List Byte) (hcol : NoCollisions x) (hz : NoZeroGroup x 0) (k : Nat) {T : Tab} {U : OTab} {pos : Nat}
    {last : Option (List Byte)} {rc : Nat}
    (hT : T.Rep x pos) (hU : OInv U x pos) (h8 : pos % 8 = 0) (hpos : pos + 8 * k ≤ x.length)
    (hlast : last = if pos = 0 then none else some (slice x (pos - 8) 8)) :
    ((orefLoop x k U pos last rc).flatMap Op.bits).length ≤ ((refLoop x k T pos last rc).flatMap Op.bits).length := by
  induction k generalizing T U pos last rc with
  | zero => exact Nat.le_refl _
  | succ k ih =>
    rw [refLoop, orefLoop]
    have hlast' : some (slice x pos 8) = if pos + 8 = 0 then none else some (slice x (pos + 8 - 8) 8) := by
      rw [if_neg (by omega), Nat.add_sub_cancel]
    have ih' := ih (rc := (orefStep U x pos last rc).2.1) (hT.next h8) (hU.step (rc := rc) h8 hlast)
      (by omega) (by omega) hlast'
    revert ih'
    unfold refStep orefStep
    simp only
    split
    · split
      · exact id
      · simp only [List.flatMap_append, List.length_append]
        omega
    · split
      · simp only [List.flatMap_append, List.length_append]
        omega
      · simp only [List.flatMap_append, List.length_append, List.flatMap_cons, List.flatMap_nil, List.append_nil]
        have := blockOp_ge hT hU h8 (by omega) hcol hz
        omega

theorem streamBits_le {x : List Byte} (h : x.length % 8 = 0) : (streamBits x).length ≤ (ostreamBits x).length := by
  unfold streamBits ostreamBits refOps orefOps shortOps
  rw [if_pos h, List.append_nil, List.length_append, List.length_append]
  have := refLoop_le x (x.length / 8) (U := .init) (last := none) (rc := 0) (Tab.Rep.init x) rfl (by omega)
  omega

theorem streamBits_eq {x : List Byte} (h : x.length % 8 = 0) (hcol : NoCollisions x) (hz : NoZeroGroup x 0) :
    (ostreamBits x).length = (streamBits x).length := by
  refine Nat.le_antisymm ?_ (streamBits_le h)
  unfold streamBits ostreamBits refOps orefOps shortOps
  rw [if_pos h, List.append_nil, List.length_append, List.length_append]
  have := refLoop_ge x hcol hz (x.length / 8) (last := none) (rc := 0) (Tab.Rep.init x) (OInv.init x) rfl (by omega) rfl
  omega

end Lib842
