import Verif.Proofs.Reader
import Verif.Proofs.CrcModel
/-!
# The software decompressor against the format
-/

namespace Lib842
open Spec

namespace Decomp

structure DInv (p : Decomp) : Prop where
  r : p.RInv
  o : p.out + p.olen = p.buf.length

/-- The output produced so far. -/
def outp (p : Decomp) : List Byte := p.buf.take p.out

theorem DInv.length_outp {p : Decomp} (h : p.DInv) : p.outp.length = p.out := by
  have := h.o
  simp [outp]; omega

theorem SameOut.dinv {p p' : Decomp} (h : SameOut p p') (hp : p.DInv) (hr : p'.RInv) : p'.DInv :=
  ⟨hr, by rw [h.out, h.olen, h.buf]; exact hp.o⟩

theorem SameOut.outp {p p' : Decomp} (h : SameOut p p') : p'.outp = p.outp := by
  unfold Decomp.outp; rw [h.buf, h.out]

end Decomp

open Decomp

theorem emit_ok {p : Decomp} (hp : p.DInv) {bs : List Byte} (h : bs.length ≤ p.olen) :
    ∃ p', emit bs p = .ok () p' ∧ p'.DInv ∧ p'.outp = p.outp ++ bs ∧ p'.rest = p.rest ∧
      p'.buf.length = p.buf.length := by
  have ho := hp.o
  have hle : p.out + bs.length ≤ p.buf.length := by omega
  unfold emit
  rw [M.update_bind_some (g := fun p : Decomp => (writeBytes p.buf p.out bs).map fun b => { p with buf := b })
    (s' := { p with buf := p.buf.take p.out ++ bs ++ p.buf.drop (p.out + bs.length) })
    (by simp only [writeBytes, if_pos hle, Option.map_some])]
  have hl : (p.buf.take p.out ++ bs ++ p.buf.drop (p.out + bs.length)).length = p.buf.length := by
    simp; omega
  refine ⟨_, rfl, ⟨⟨hp.r.len, hp.r.bit, hp.r.part⟩, ?_⟩, ?_, rfl, hl⟩
  · simp only [hl]; omega
  · unfold Decomp.outp
    simp only
    rw [List.take_append_of_le_length (by simp; omega), List.take_of_length_le (by simp)]

/-- What one step may do: succeed with `Q`, or fail leaving the buffer length
unchanged. -/
def StepOr {α : Type} (x : Outcome Decomp α) (p : Decomp) (Q : α → Decomp → Prop) : Prop :=
  (∃ a p', x = .ok a p' ∧ p'.DInv ∧ p'.buf.length = p.buf.length ∧ Q a p') ∨
  (∃ er p', x = .err er p' ∧ p'.buf.length = p.buf.length)

theorem nextBits_step (e : Endian) {n : Nat} (hn1 : 1 ≤ n) (hn : n ≤ 64) {p : Decomp} (hp : p.DInv) :
    StepOr (nextBits e n p) p fun v p' => v.toNat < 2 ^ n ∧ p.rest = bitsOf n v.toNat ++ p'.rest ∧
      p'.outp = p.outp ∧ p'.olen = p.olen ∧ p'.out = p.out ∧ p'.buf = p.buf := by
  by_cases h : n ≤ p.rest.length
  · obtain ⟨v, p', h1, hi, hs, hv, hr⟩ := (nextBits_reads e n hn1 hn).ok p hp.r h
    exact .inl ⟨v, p', h1, hs.dinv hp hi, by rw [hs.buf], hv, hr, hs.outp, hs.olen, hs.out, hs.buf⟩
  · obtain ⟨p', h1, hi, hs⟩ := (nextBits_reads e n hn1 hn).eof p hp.r (by omega)
    exact .inr ⟨_, p', h1, by rw [hs.buf]⟩

/-- `next_bits` on an input known to continue with the `n` bits of `k`. -/
theorem nextBits_of (e : Endian) {n : Nat} (hn1 : 1 ≤ n) (hn : n ≤ 64) {p : Decomp} (hp : p.DInv)
    {k : Nat} (hk : k < 2 ^ n) {R : List Bool} (hR : p.rest = bitsOf n k ++ R) :
    ∃ v p', nextBits e n p = .ok v p' ∧ v.toNat = k ∧ p'.DInv ∧ p'.rest = R ∧
      p'.outp = p.outp ∧ p'.olen = p.olen ∧ p'.out = p.out ∧ p'.buf = p.buf := by
  obtain ⟨v, p', h1, hi, hs, hv, hr⟩ := (nextBits_reads e n hn1 hn).ok p hp.r (by rw [hR]; simp)
  rw [hR] at hr
  have := List.append_inj hr (by simp)
  exact ⟨v, p', h1, (bitsOf_inj this.1 hk hv).symm, hs.dinv hp hi, this.2.symm, hs.outp, hs.olen, hs.out, hs.buf⟩

/-! ## Ring buffer references -/

def SizeOk (s : Nat) : Prop := s = 2 ∨ s = 4 ∨ s = 8

theorem indexOffset_sound {len size i : Nat} (hs : SizeOk size) (hi : i < 2 ^ indexBits size)
    (h : indexOffset i size (ringSize size) (roundDown len 8) + size ≤ roundDown len 8) :
    RingRef len size i (indexOffset i size (ringSize size) (roundDown len 8)) := by
  have ht : roundDown len 8 = 8 * (len / 8) := by unfold roundDown; omega
  rw [ht] at h ⊢
  generalize len / 8 = q at h ht ⊢
  unfold RingRef
  have hq : len / 8 = q := by unfold roundDown at ht; omega
  rw [hq]
  unfold indexOffset roundDown at *
  rcases hs with rfl | rfl | rfl <;> simp [ringSize, indexBits] at hi h ⊢ <;>
    split at h <;> rename_i h1 <;> simp only [h1, if_true, if_false] <;>
    (try split at h) <;> (try rename_i h2; simp only [h2, if_true, if_false]) <;> omega

theorem indexOffset_complete {len size i o : Nat} (hs : SizeOk size) (hi : i < 2 ^ indexBits size)
    (h : RingRef len size i o) :
    indexOffset i size (ringSize size) (roundDown len 8) = o ∧ o + size ≤ roundDown len 8 := by
  have ht : roundDown len 8 = 8 * (len / 8) := by unfold roundDown; omega
  unfold RingRef at h
  rw [ht]
  generalize len / 8 = q at h ⊢
  obtain ⟨h1, h2, h3⟩ := h
  refine ⟨?_, h2⟩
  unfold indexOffset roundDown
  rcases hs with rfl | rfl | rfl <;> simp [ringSize, indexBits] at hi h1 h2 h3 ⊢ <;>
    split <;> (try split) <;> omega

/-! ## Actions -/

/-- The bytes `do_data` stores for the value `v`. -/
theorem doData_emit (e : Endian) {n : Nat} (hn : SizeOk n) {v : BitVec 64} (hv : v.toNat < 2 ^ (n * 8)) :
    ∃ bs : List Byte, bs.length = n ∧ bytesBits bs = bitsOf (n * 8) v.toNat ∧
      (if n = 2 then emit (wordBytes16 e (swapBe16 e (v.setWidth 16)))
       else if n = 4 then emit (wordBytes32 e (swapBe32 e (v.setWidth 32)))
       else if n = 8 then emit (wordBytes64 e (swapBe64 e v))
       else M.fail .EINVAL) = emit bs := by
  rcases hn with rfl | rfl | rfl
  · refine ⟨wordBytes16 .big (v.setWidth 16), rfl, ?_, ?_⟩
    · rw [bytesBits_wordBytes16, BitVec.toNat_setWidth, Nat.mod_eq_of_lt hv]
    · rw [if_pos rfl, wordBytes16_swap]
  · refine ⟨wordBytes32 .big (v.setWidth 32), rfl, ?_, ?_⟩
    · rw [bytesBits_wordBytes32, BitVec.toNat_setWidth, Nat.mod_eq_of_lt hv]
    · rw [if_neg (by omega), if_pos rfl, wordBytes32_swap]
  · refine ⟨wordBytes64 .big v, rfl, ?_, ?_⟩
    · rw [bytesBits_wordBytes64]
    · rw [if_neg (by omega), if_neg (by omega), if_pos rfl, wordBytes64_swap]

theorem doData_step (e : Endian) {n : Nat} (hn : SizeOk n) {p : Decomp} (hp : p.DInv) :
    StepOr (doData e n p) p fun _ p' => ∃ bs : List Byte, bs.length = n ∧
      p.rest = bytesBits bs ++ p'.rest ∧ p'.outp = p.outp ++ bs := by
  have hn8 : 1 ≤ n * 8 ∧ n * 8 ≤ 64 := by rcases hn with rfl | rfl | rfl <;> omega
  unfold doData
  rw [M.get_bind_apply]
  by_cases h : n > p.olen
  · rw [if_pos h]; exact .inr ⟨_, p, rfl, rfl⟩
  rw [if_neg h]
  rcases nextBits_step e hn8.1 hn8.2 hp with ⟨v, p1, h1, hi1, hl1, hv, hr, ho, hol, -, -⟩ | ⟨er, p1, h1, hl⟩
  · rw [M.bind_ok h1]
    obtain ⟨bs, hbl, hbb, hem⟩ := doData_emit e hn hv
    rw [hem]
    obtain ⟨p2, h2, hi2, ho2, hr2, hl2⟩ := emit_ok hi1 (bs := bs) (by omega)
    exact .inl ⟨(), p2, h2, hi2, hl2.trans hl1, bs, hbl, by rw [hr, hbb, hr2], by rw [ho2, ho]⟩
  · rw [M.bind_err h1]; exact .inr ⟨_, _, rfl, hl⟩

theorem bytesBits_val {bs : List Byte} {n : Nat} (h : bs.length = n) :
    ∃ k, k < 2 ^ (n * 8) ∧ bytesBits bs = bitsOf (n * 8) k := by
  have hl : (bytesBits bs).length = n * 8 := by simp [h, Nat.mul_comm]
  refine ⟨bitsVal (bytesBits bs), ?_, ?_⟩
  · rw [← hl]; exact bitsVal_lt _
  · rw [← hl, bitsOf_bitsVal]

theorem doData_of (e : Endian) {bs : List Byte} (hn : SizeOk bs.length) {p : Decomp} (hp : p.DInv)
    {R : List Bool} (hR : p.rest = bytesBits bs ++ R) :
    (p.outp.length + bs.length ≤ p.buf.length ∧
      ∃ p', doData e bs.length p = .ok () p' ∧ p'.DInv ∧ p'.buf.length = p.buf.length ∧
        p'.rest = R ∧ p'.outp = p.outp ++ bs) ∨
    (p.buf.length < p.outp.length + bs.length ∧ ∃ p', doData e bs.length p = .err .ENOSPC p') := by
  have hn8 : 1 ≤ bs.length * 8 ∧ bs.length * 8 ≤ 64 := by
    rcases hn with h | h | h <;> rw [h] <;> omega
  rw [hp.length_outp]
  have ho := hp.o
  unfold doData
  rw [M.get_bind_apply]
  by_cases h : bs.length > p.olen
  · rw [if_pos h]; exact .inr ⟨by omega, p, rfl⟩
  rw [if_neg h]
  obtain ⟨k, hk, hbk⟩ := bytesBits_val (bs := bs) rfl
  obtain ⟨v, p1, h1, hvk, hi1, hr1, hou1, hol1, hout1, hb1⟩ :=
    nextBits_of e hn8.1 hn8.2 hp hk (by rw [hR, hbk])
  rw [M.bind_ok h1]
  obtain ⟨bs', hbl, hbb, hem⟩ := doData_emit e hn (v := v) (by rw [hvk]; exact hk)
  rw [hem]
  have hbs : bs' = bs := bytesBits_inj (by rw [hbb, hbk, hvk])
  subst hbs
  obtain ⟨p2, h2, hi2, ho2, hr2, hl2⟩ := emit_ok hi1 (bs := bs') (by omega)
  exact .inl ⟨by omega, p2, h2, hi2, by rw [hl2, hb1], by rw [hr2, hr1], by rw [ho2, hou1]⟩

theorem doIndex_eq (e : Endian) {n : Nat} (hn : SizeOk n) :
    doIndex e n = doIndexN e n (indexBits n) (ringSize n) := by
  rcases hn with rfl | rfl | rfl <;> simp [doIndex, indexBits, ringSize]

theorem indexBits_bounds (n : Nat) : 1 ≤ indexBits n ∧ indexBits n ≤ 64 := by
  unfold indexBits; split <;> omega

theorem take_outp {p : Decomp} {o n : Nat} (h : o + n ≤ p.out) :
    (p.buf.drop o).take n = (p.outp.drop o).take n := by
  unfold Decomp.outp
  rw [List.drop_take, List.take_take]
  congr 1; omega

theorem doIndex_step (e : Endian) {n : Nat} (hn : SizeOk n) {p : Decomp} (hp : p.DInv) :
    StepOr (doIndex e n p) p fun _ p' => ∃ i, i < 2 ^ indexBits n ∧
      p.rest = bitsOf (indexBits n) i ++ p'.rest ∧ ∃ o, RingRef p.outp.length n i o ∧
      p'.outp = p.outp ++ (p.outp.drop o).take n := by
  rw [doIndex_eq e hn, hp.length_outp]
  unfold doIndexN
  rw [M.get_bind_apply]
  rcases nextBits_step e (indexBits_bounds n).1 (indexBits_bounds n).2 hp with
    ⟨v, p1, h1, hi1, hl1, hv, hr, ho, hol, hout, hbuf⟩ | ⟨er, p1, h1, hl⟩
  · rw [M.bind_ok h1]
    by_cases hoff : indexOffset v.toNat n (ringSize n) (roundDown p.out 8) + n > roundDown p.out 8
    · rw [if_pos hoff]; exact .inr ⟨_, _, rfl, hl1⟩
    rw [if_neg hoff, M.get_bind_apply]
    by_cases hsp : n > p1.olen
    · rw [if_pos hsp]; exact .inr ⟨_, _, rfl, hl1⟩
    rw [if_neg hsp]
    have hrd : roundDown p.out 8 ≤ p.out := by unfold roundDown; omega
    have hin := hi1.o
    have hle : indexOffset v.toNat n (ringSize n) (roundDown p.out 8) + n ≤ p1.out := by omega
    rw [M.access_bind_some (g := fun q : Decomp => readBytes q.buf _ n) (readBytes_ok (by omega))]
    obtain ⟨p2, h2, hi2, ho2, hr2, hl2⟩ := emit_ok hi1
      (bs := (p1.buf.drop (indexOffset v.toNat n (ringSize n) (roundDown p.out 8))).take n)
      (by simp; omega)
    refine .inl ⟨(), p2, h2, hi2, hl2.trans hl1, v.toNat, hv, by rw [hr, hr2], _,
      indexOffset_sound hn hv (by omega), ?_⟩
    rw [ho2, take_outp hle, ho]
  · rw [M.bind_err h1]; exact .inr ⟨_, _, rfl, hl⟩

theorem doIndex_of (e : Endian) {n i o : Nat} (hn : SizeOk n) (hi : i < 2 ^ indexBits n)
    {p : Decomp} (hp : p.DInv) {R : List Bool} (hR : p.rest = bitsOf (indexBits n) i ++ R)
    (href : RingRef p.outp.length n i o) :
    (p.outp.length + n ≤ p.buf.length ∧
      ∃ p', doIndex e n p = .ok () p' ∧ p'.DInv ∧ p'.buf.length = p.buf.length ∧
        p'.rest = R ∧ p'.outp = p.outp ++ (p.outp.drop o).take n) ∨
    (p.buf.length < p.outp.length + n ∧ ∃ p', doIndex e n p = .err .ENOSPC p') := by
  rw [hp.length_outp] at href ⊢
  rw [doIndex_eq e hn]
  have ho := hp.o
  unfold doIndexN
  rw [M.get_bind_apply]
  obtain ⟨v, p1, h1, hvk, hi1, hr1, hou1, hol1, hout1, hb1⟩ :=
    nextBits_of e (indexBits_bounds n).1 (indexBits_bounds n).2 hp hi hR
  rw [M.bind_ok h1]
  obtain ⟨hoeq, hole⟩ := indexOffset_complete hn hi href
  simp only [hvk, hoeq]
  rw [if_neg (by omega), M.get_bind_apply]
  by_cases hsp : n > p1.olen
  · rw [if_pos hsp]; exact .inr ⟨by omega, _, rfl⟩
  rw [if_neg hsp]
  have hrd : roundDown p.out 8 ≤ p.out := by unfold roundDown; omega
  have hle : o + n ≤ p1.out := by omega
  have hin := hi1.o
  rw [M.access_bind_some (g := fun q : Decomp => readBytes q.buf _ n) (readBytes_ok (by omega))]
  obtain ⟨p2, h2, hi2, ho2, hr2, hl2⟩ := emit_ok hi1 (bs := (p1.buf.drop o).take n) (by simp; omega)
  refine .inl ⟨by omega, p2, h2, hi2, by rw [hl2, hb1], by rw [hr2, hr1], ?_⟩
  rw [ho2, take_outp hle, hou1]

/-! ## Templates -/

/-- The C encoding of an action. -/
def encAction : Action → Nat
  | .D n => 0x20 ||| n
  | .I n => 0x10 ||| n

def ActionOk : Action → Prop
  | .D n => SizeOk n
  | .I n => SizeOk n

theorem _root_.Lib842.Spec.ArgsRun.length_le {a b : List Byte} {as : List Arg} (h : ArgsRun a as b) :
    a.length ≤ b.length := by
  induction h with
  | nil => exact Nat.le_refl _
  | cons h1 _ ih =>
    refine Nat.le_trans ?_ ih
    cases h1 <;> simp

theorem encAction_D {n : Nat} (hn : SizeOk n) :
    encAction (.D n) &&& 0x70 = 0x20 ∧ encAction (.D n) &&& 0x0f = n := by
  rcases hn with rfl | rfl | rfl <;> decide

theorem encAction_I {n : Nat} (hn : SizeOk n) :
    encAction (.I n) &&& 0x70 = 0x10 ∧ encAction (.I n) &&& 0x0f = n := by
  rcases hn with rfl | rfl | rfl <;> decide

theorem doActions_noop (e : Endian) (k : Nat) (p : Decomp) :
    doActions e (List.replicate k 0x40) p = .ok () p := by
  induction k with
  | zero => rfl
  | succ k ih =>
    rw [List.replicate_succ, doActions]
    simp only [if_neg (show ¬ (0x40 &&& 0x70 = 0x20) by decide),
      if_neg (show ¬ (0x40 &&& 0x70 = 0x10) by decide), if_pos (show (0x40 &&& 0x70 = 0x40) by decide)]
    exact ih

theorem doActions_step (e : Endian) (k : Nat) (acts : List Action) (hacts : ∀ a ∈ acts, ActionOk a)
    {p : Decomp} (hp : p.DInv) :
    StepOr (doActions e (acts.map encAction ++ List.replicate k 0x40) p) p fun _ p' =>
      ∃ args : List Arg, args.map Arg.action = acts ∧ (∀ a ∈ args, a.Valid) ∧
        p.rest = args.flatMap Arg.bits ++ p'.rest ∧ ArgsRun p.outp args p'.outp := by
  induction acts generalizing p with
  | nil =>
    refine .inl ⟨(), p, doActions_noop e k p, hp, rfl, [], rfl, by simp, by simp, .nil⟩
  | cons a acts ih =>
    have hacts' : ∀ a ∈ acts, ActionOk a := fun a ha => hacts a (List.mem_cons_of_mem _ ha)
    have ha := hacts a (List.mem_cons_self ..)
    rw [List.map_cons, List.cons_append, doActions]
    cases a with
    | D n =>
      simp only [(encAction_D ha).1, (encAction_D ha).2, if_true]
      rcases doData_step e ha hp with ⟨_, p1, h1, hi1, hl1, bs, hbl, hr1, ho1⟩ | ⟨er, p1, h1, hl⟩
      · rw [M.bind_ok h1]
        rcases ih hacts' hi1 with ⟨_, p2, h2, hi2, hl2, args, hm, hv, hr2, hrun⟩ | ⟨er, p2, h2, hl⟩
        · refine .inl ⟨(), p2, h2, hi2, hl2.trans hl1, .data bs :: args, ?_, ?_, ?_, ?_⟩
          · simp [Arg.action, hbl, hm]
          · intro a ha'
            rcases List.mem_cons.1 ha' with rfl | h
            · trivial
            · exact hv a h
          · rw [hr1, hr2]; simp [Arg.bits]
          · refine .cons .data ?_
            rw [← ho1]; exact hrun
        · exact .inr ⟨er, p2, h2, hl.trans hl1⟩
      · rw [M.bind_err h1]; exact .inr ⟨_, _, rfl, hl⟩
    | I n =>
      simp only [(encAction_I ha).1, (encAction_I ha).2, if_true]
      rw [if_neg (by decide)]
      rcases doIndex_step e ha hp with ⟨_, p1, h1, hi1, hl1, i, hib, hr1, o, href, ho1⟩ | ⟨er, p1, h1, hl⟩
      · rw [M.bind_ok h1]
        rcases ih hacts' hi1 with ⟨_, p2, h2, hi2, hl2, args, hm, hv, hr2, hrun⟩ | ⟨er, p2, h2, hl⟩
        · refine .inl ⟨(), p2, h2, hi2, hl2.trans hl1, .index n i :: args, ?_, ?_, ?_, ?_⟩
          · simp [Arg.action, hm]
          · intro a ha'
            rcases List.mem_cons.1 ha' with rfl | h
            · exact hib
            · exact hv a h
          · rw [hr1, hr2]; simp [Arg.bits]
          · refine .cons (.index href) ?_
            rw [← ho1]; exact hrun
        · exact .inr ⟨er, p2, h2, hl.trans hl1⟩
      · rw [M.bind_err h1]; exact .inr ⟨_, _, rfl, hl⟩

/-- On a state whose unread input starts with valid ops the outcome is decided
by the capacity alone. -/
def Decides (x : Outcome Decomp Unit) (p : Decomp) (R : List Bool) (o : List Byte) : Prop :=
  (o.length ≤ p.buf.length ∧
    ∃ p', x = .ok () p' ∧ p'.DInv ∧ p'.buf.length = p.buf.length ∧ p'.rest = R ∧ p'.outp = o) ∨
  (p.buf.length < o.length ∧ ∃ p', x = .err .ENOSPC p')

theorem doActions_of (e : Endian) (k : Nat) (args : List Arg)
    (hacts : ∀ a ∈ args, ActionOk a.action) (hval : ∀ a ∈ args, a.Valid)
    {p : Decomp} (hp : p.DInv) {R : List Bool} (hR : p.rest = args.flatMap Arg.bits ++ R)
    {o : List Byte} (hrun : ArgsRun p.outp args o) :
    Decides (doActions e ((args.map Arg.action).map encAction ++ List.replicate k 0x40) p) p R o := by
  induction args generalizing p with
  | nil =>
    cases hrun
    have := hp.length_outp
    have := hp.o
    exact .inl ⟨by omega, p, doActions_noop e k p, hp, rfl, by simpa using hR, rfl⟩
  | cons a args ih =>
    have hacts' : ∀ a ∈ args, ActionOk a.action := fun a ha => hacts a (List.mem_cons_of_mem _ ha)
    have hval' : ∀ a ∈ args, a.Valid := fun a ha => hval a (List.mem_cons_of_mem _ ha)
    have ha := hacts a (List.mem_cons_self ..)
    have hv := hval a (List.mem_cons_self ..)
    rw [List.map_cons, List.map_cons, List.cons_append, doActions]
    cases hrun with
    | @cons _ _ o1 _ _ h1 h2 =>
      have hle := h2.length_le
      simp only [List.flatMap_cons, List.append_assoc] at hR
      cases h1 with
      | @data bs =>
        simp only [Arg.action, (encAction_D ha).1, (encAction_D ha).2, if_true]
        rcases doData_of e ha hp hR with ⟨hc, p1, h1, hi1, hl1, hr1, ho1⟩ | ⟨hc, p1, h1⟩
        · rw [M.bind_ok h1]
          rw [← ho1] at h2
          have := ih hacts' hval' hi1 hr1 h2
          unfold Decides at this ⊢
          rw [hl1] at this
          exact this
        · rw [M.bind_err h1]
          simp only [List.length_append] at hle
          exact .inr ⟨by omega, _, rfl⟩
      | @index n i o' href =>
        simp only [Arg.action, (encAction_I ha).1, (encAction_I ha).2, if_true]
        rw [if_neg (by decide)]
        rcases doIndex_of e ha hv hp hR href with ⟨hc, p1, h1, hi1, hl1, hr1, ho1⟩ | ⟨hc, p1, h1⟩
        · rw [M.bind_ok h1]
          rw [← ho1] at h2
          have := ih hacts' hval' hi1 hr1 h2
          unfold Decides at this ⊢
          rw [hl1] at this
          exact this
        · rw [M.bind_err h1]
          have : o' + n ≤ p.outp.length := by
            have := href.2.1
            omega
          simp only [List.length_append, List.length_take, List.length_drop] at hle
          exact .inr ⟨by omega, _, rfl⟩

theorem decompOps_eq : ∀ c, c < 26 → ∃ acts, templates[c]? = some acts ∧
    decompOps[c]? = some (acts.map encAction ++ List.replicate (4 - acts.length) 0x40) ∧
    (∀ a ∈ acts, ActionOk a) := by
  intro c hc
  interval_cases c <;> exact ⟨_, rfl, rfl, by simp [ActionOk, SizeOk]⟩

/-! ## Ops -/

theorem drop_last8 (l : List Byte) (h : 8 ≤ l.length) (x : List Byte) (hx : x = l.drop (l.length - 8)) :
    (l ++ x).drop ((l ++ x).length - 8) = x := by
  have hl : x.length = 8 := by rw [hx]; simp; omega
  rw [List.length_append, hl, Nat.add_sub_cancel]; simp

theorem doRepeat_ok (k : Nat) {p : Decomp} (hp : p.DInv) (h8 : 8 ≤ p.out) (hsp : k * 8 ≤ p.olen) :
    ∃ p', doRepeat k p = .ok () p' ∧ p'.DInv ∧ p'.buf.length = p.buf.length ∧ p'.rest = p.rest ∧
      p'.outp = p.outp ++ (List.replicate k (p.outp.drop (p.outp.length - 8))).flatten := by
  induction k generalizing p with
  | zero => exact ⟨p, rfl, hp, rfl, rfl, by simp⟩
  | succ k ih =>
    have ho := hp.o
    have hlo := hp.length_outp
    rw [doRepeat]
    rw [M.access_bind_some
      (g := fun p : Decomp => if p.out < 8 then none else readBytes p.buf (p.out - 8) 8)
      (a := (p.buf.drop (p.out - 8)).take 8)
      (by rw [if_neg (by omega), readBytes_ok (by omega)])]
    have hx : (p.buf.drop (p.out - 8)).take 8 = p.outp.drop (p.outp.length - 8) := by
      rw [take_outp (by omega), hlo, List.take_of_length_le (by simp [hlo]; omega)]
    rw [hx]
    obtain ⟨p1, h1, hi1, ho1, hr1, hl1⟩ := emit_ok hp (bs := p.outp.drop (p.outp.length - 8))
      (by simp [hlo]; omega)
    rw [M.bind_ok h1]
    have hlo1 := hi1.length_outp
    have hoo1 := hi1.o
    rw [ho1] at hlo1
    simp only [List.length_append, List.length_drop] at hlo1
    obtain ⟨p2, h2, hi2, hl2, hr2, ho2⟩ := ih hi1 (by omega) (by omega)
    refine ⟨p2, h2, hi2, hl2.trans hl1, hr2.trans hr1, ?_⟩
    rw [ho2, ho1, drop_last8 _ (by omega) _ rfl, List.replicate_succ, List.flatten_cons,
      List.append_assoc]

theorem doRepeat_ub (k : Nat) {p : Decomp} (h8 : p.out < 8) : doRepeat (k + 1) p = .ub := by
  rw [doRepeat, M.bind_def]
  simp [M.access, h8]

theorem doShort_step (e : Endian) (n : Nat) {p : Decomp} (hp : p.DInv) (hsp : n ≤ p.olen) :
    StepOr (doShort e n p) p fun _ p' => ∃ bs : List Byte, bs.length = n ∧
      p.rest = bytesBits bs ++ p'.rest ∧ p'.outp = p.outp ++ bs := by
  induction n generalizing p with
  | zero => exact .inl ⟨(), p, rfl, hp, rfl, [], rfl, by simp, by simp⟩
  | succ n ih =>
    have ho := hp.o
    rw [doShort]
    rcases nextBits_step e (n := 8) (by omega) (by omega) hp with
      ⟨v, p1, h1, hi1, hl1, hv, hr, ho, hol, hout, hbuf⟩ | ⟨er, p1, h1, hl⟩
    · rw [M.bind_ok h1]
      obtain ⟨p2, h2, hi2, ho2, hr2, hl2⟩ := emit_ok hi1 (bs := [v.setWidth 8]) (by simp; omega)
      rw [M.bind_ok h2]
      have := hi2.o
      have hlo2 := hi2.length_outp
      rw [ho2, List.length_append, hi1.length_outp] at hlo2
      simp only [List.length_singleton] at hlo2
      rcases ih hi2 (by omega) with ⟨_, p3, h3, hi3, hl3, bs, hbl, hr3, ho3⟩ | ⟨er, p3, h3, hl⟩
      · refine .inl ⟨(), p3, h3, hi3, hl3.trans (hl2.trans hl1), v.setWidth 8 :: bs, by simp [hbl], ?_, ?_⟩
        · rw [hr, ← hr2, hr3, bytesBits_cons, BitVec.toNat_setWidth, Nat.mod_eq_of_lt hv,
            List.append_assoc]
        · rw [ho3, ho2, ho, List.append_assoc]; rfl
      · exact .inr ⟨_, _, h3, hl.trans (hl2.trans hl1)⟩
    · rw [M.bind_err h1]; exact .inr ⟨_, _, rfl, hl⟩

theorem doShort_of (e : Endian) (bs : List Byte) {p : Decomp} (hp : p.DInv) (hsp : bs.length ≤ p.olen)
    {R : List Bool} (hR : p.rest = bytesBits bs ++ R) :
    ∃ p', doShort e bs.length p = .ok () p' ∧ p'.DInv ∧ p'.buf.length = p.buf.length ∧
      p'.rest = R ∧ p'.outp = p.outp ++ bs := by
  induction bs generalizing p with
  | nil => exact ⟨p, rfl, hp, rfl, by simpa using hR, by simp⟩
  | cons b bs ih =>
    rw [List.length_cons, doShort]
    rw [bytesBits_cons, List.append_assoc] at hR
    simp only [List.length_cons] at hsp
    have ho := hp.o
    obtain ⟨v, p1, h1, hvk, hi1, hr1, hou1, hol1, hout1, hb1⟩ :=
      nextBits_of e (n := 8) (by omega) (by omega) hp b.isLt hR
    rw [M.bind_ok h1]
    have hb : v.setWidth 8 = b := by
      apply BitVec.eq_of_toNat_eq
      rw [BitVec.toNat_setWidth, hvk, Nat.mod_eq_of_lt b.isLt]
    rw [hb]
    obtain ⟨p2, h2, hi2, ho2, hr2, hl2⟩ := emit_ok hi1 (bs := [b]) (by simp; omega)
    rw [M.bind_ok h2]
    have := hi2.o
    have hlo2 := hi2.length_outp
    rw [ho2, List.length_append, hi1.length_outp] at hlo2
    simp only [List.length_singleton] at hlo2
    obtain ⟨p3, h3, hi3, hl3, hr3, ho3⟩ := ih hi2 (by rw [hb1] at hl2; omega) (by rw [hr2, hr1])
    refine ⟨p3, h3, hi3, by rw [hl3, hl2, hb1], hr3, ?_⟩
    rw [ho3, ho2, hou1, List.append_assoc]; rfl

/-- Undefined behaviour: a repeat op with 1 to 7 bytes of output. -/
def RepeatUB (cap : Nat) (out : List Byte) (n : Nat) : Prop :=
  n < 64 ∧ 0 < out.length ∧ out.length < 8 ∧ out.length + 8 * (n + 1) ≤ cap

theorem decompOp_step (e : Endian) {code : Nat} (hc : code < 32) (hne : code ≠ 0x1e) {p : Decomp}
    (hp : p.DInv) :
    StepOr (decompOp e code p) p (fun _ p' => ∃ op : Op, op.Valid ∧
      bitsOf 5 code ++ p.rest = op.bits ++ p'.rest ∧ OpStep p.outp op p'.outp) ∨
    (decompOp e code p = .ub ∧ ∃ n R, bitsOf 5 code ++ p.rest = (Op.rep n).bits ++ R ∧
      RepeatUB p.buf.length p.outp n) := by
  have hlo := hp.length_outp
  have ho := hp.o
  unfold decompOp
  by_cases h1b : code = 0x1B
  · rw [if_pos h1b]
    rcases nextBits_step e (n := 6) (by omega) (by omega) hp with
      ⟨v, p1, h1, hi1, hl1, hv, hr, ho1, hol, hout, hbuf⟩ | ⟨er, p1, h1, hl⟩
    · rw [M.bind_ok h1, M.get_bind_apply]
      by_cases hz : p1.out = 0
      · rw [if_pos hz]; exact .inl (.inr ⟨_, _, rfl, hl1⟩)
      rw [if_neg hz]
      by_cases hs : (v.toNat + 1) * 8 > p1.olen
      · rw [if_pos hs]; exact .inl (.inr ⟨_, _, rfl, hl1⟩)
      rw [if_neg hs]
      by_cases h8 : p1.out < 8
      · refine .inr ⟨doRepeat_ub _ h8, v.toNat, p1.rest, ?_, hv, ?_, ?_, ?_⟩
        · rw [hr, h1b, Op.bits, List.append_assoc]
        · omega
        · omega
        · omega
      · obtain ⟨p2, h2, hi2, hl2, hr2, ho2⟩ := doRepeat_ok (v.toNat + 1) hi1 (by omega) (by omega)
        refine .inl (.inl ⟨(), p2, h2, hi2, hl2.trans hl1, .rep v.toNat, hv, ?_, ?_⟩)
        · rw [hr, hr2, h1b, Op.bits, List.append_assoc]
        · rw [ho2, ho1]; exact .rep (by omega)
    · rw [M.bind_err h1]; exact .inl (.inr ⟨_, _, rfl, hl⟩)
  rw [if_neg h1b]
  refine .inl ?_
  by_cases h1c : code = 0x1C
  · rw [if_pos h1c, M.get_bind_apply]
    by_cases hs : 8 > p.olen
    · rw [if_pos hs]; exact .inr ⟨_, _, rfl, rfl⟩
    rw [if_neg hs]
    obtain ⟨p2, h2, hi2, ho2, hr2, hl2⟩ := emit_ok hp (bs := List.replicate 8 0#8) (by simp; omega)
    refine .inl ⟨(), p2, h2, hi2, hl2, .zeros, trivial, ?_, ?_⟩
    · rw [hr2, h1c]; rfl
    · rw [ho2]; exact .zeros
  rw [if_neg h1c]
  by_cases h1d : code = 0x1D
  · rw [if_pos h1d]
    rcases nextBits_step e (n := 3) (by omega) (by omega) hp with
      ⟨v, p1, h1, hi1, hl1, hv, hr, ho1, hol, hout, hbuf⟩ | ⟨er, p1, h1, hl⟩
    · rw [M.bind_ok h1]
      by_cases hz : v.toNat = 0 ∨ v.toNat > 7
      · rw [if_pos hz]; exact .inr ⟨_, _, rfl, hl1⟩
      rw [if_neg hz, M.get_bind_apply]
      by_cases hs : v.toNat > p1.olen
      · rw [if_pos hs]; exact .inr ⟨_, _, rfl, hl1⟩
      rw [if_neg hs]
      rcases doShort_step e v.toNat hi1 (by omega) with
        ⟨_, p2, h2, hi2, hl2, bs, hbl, hr2, ho2⟩ | ⟨er, p2, h2, hl⟩
      · refine .inl ⟨(), p2, h2, hi2, hl2.trans hl1, .short bs, ?_, ?_, ?_⟩
        · simp only [Op.Valid]; omega
        · rw [hr, hr2, h1d, Op.bits, hbl]; simp only [List.append_assoc]
        · rw [ho2, ho1]; exact .short
      · exact .inr ⟨_, _, h2, hl.trans hl1⟩
    · rw [M.bind_err h1]; exact .inr ⟨_, _, rfl, hl⟩
  rw [if_neg h1d]
  unfold doOp
  by_cases h1a : code ≥ 0x1a
  · rw [if_pos h1a]; exact .inr ⟨_, _, rfl, rfl⟩
  rw [if_neg h1a]
  obtain ⟨acts, ht, hd, hok⟩ := decompOps_eq code (by omega)
  rw [M.access_bind_some (g := fun _ : Decomp => decompOps[code]?) hd]
  rcases doActions_step e (4 - acts.length) acts hok hp with
    ⟨_, p1, h1, hi1, hl1, args, hm, hv, hr1, hrun⟩ | ⟨er, p1, h1, hl⟩
  · refine .inl ⟨(), p1, h1, hi1, hl1, .template code args, ⟨by rw [ht, hm], hv⟩, ?_, .template hrun⟩
    rw [hr1, Op.bits, List.append_assoc]
  · exact .inr ⟨_, _, h1, hl⟩

/-- The 5-bit code of an op. -/
def opCode : Op → Nat
  | .template code _ => code
  | .rep _ => 0x1b
  | .zeros => 0x1c
  | .short _ => 0x1d

def opTail : Op → List Bool
  | .template _ args => args.flatMap Arg.bits
  | .rep n => bitsOf 6 n
  | .zeros => []
  | .short bs => bitsOf 3 bs.length ++ bytesBits bs

theorem op_bits_eq (op : Op) : op.bits = bitsOf 5 (opCode op) ++ opTail op := by
  cases op <;> simp [Op.bits, opCode, opTail]

theorem opCode_lt {op : Op} (h : op.Valid) : opCode op < 32 ∧ opCode op ≠ 0x1e := by
  cases op with
  | template code args =>
    have := h.1
    have hlt : code < templates.length := by
      by_contra hge
      rw [List.getElem?_eq_none (by omega)] at this
      cases this
    have : templates.length = 26 := rfl
    simp only [opCode]; omega
  | rep n => simp [opCode]
  | zeros => simp [opCode]
  | short bs => simp [opCode]

theorem decompOp_of (e : Endian) {op : Op} (hv : op.Valid) {p : Decomp} (hp : p.DInv) {R : List Bool}
    (hR : p.rest = opTail op ++ R) {o : List Byte} (hstep : OpStep p.outp op o) :
    Decides (decompOp e (opCode op) p) p R o := by
  have hlo := hp.length_outp
  have ho := hp.o
  cases hstep with
  | @template code args _ hrun =>
    have hc : code < 26 := by
      have := hv.1
      by_contra hge
      rw [List.getElem?_eq_none (by simp [templates]; omega)] at this
      cases this
    obtain ⟨acts, ht, hd, hok⟩ := decompOps_eq code hc
    have hm : args.map Arg.action = acts := by
      have := hv.1
      rw [ht] at this
      exact (Option.some.inj this).symm
    show Decides (decompOp e code p) p R _
    unfold decompOp
    rw [if_neg (by omega), if_neg (by omega), if_neg (by omega)]
    unfold doOp
    rw [if_neg (by omega), M.access_bind_some (g := fun _ : Decomp => decompOps[code]?) hd, ← hm]
    exact doActions_of e _ args (fun a ha => hok _ (by rw [← hm]; exact List.mem_map_of_mem ha))
      hv.2 hp hR hrun
  | @rep n h8 =>
    show Decides (decompOp e 0x1b p) p R _
    unfold decompOp
    rw [if_pos rfl]
    obtain ⟨v, p1, h1, hvk, hi1, hr1, hou1, hol1, hout1, hb1⟩ :=
      nextBits_of e (n := 6) (by omega) (by omega) hp (show n < 2 ^ 6 from hv) hR
    rw [M.bind_ok h1, M.get_bind_apply, if_neg (by omega), hvk]
    have hlen : (p.outp ++ (List.replicate (n + 1) (p.outp.drop (p.outp.length - 8))).flatten).length
        = p.out + (n + 1) * 8 := by
      simp [hlo]; rw [show p.out - (p.out - 8) = 8 by omega]
    by_cases hs : (n + 1) * 8 > p1.olen
    · rw [if_pos hs]; exact .inr ⟨by rw [hlen]; omega, _, rfl⟩
    · rw [if_neg hs]
      obtain ⟨p2, h2, hi2, hl2, hr2, ho2⟩ := doRepeat_ok (n + 1) hi1 (by omega) (by omega)
      exact .inl ⟨by rw [hlen]; omega, p2, h2, hi2, by rw [hl2, hb1], hr2.trans hr1,
        by rw [ho2, hou1]⟩
  | zeros =>
    show Decides (decompOp e 0x1c p) p R _
    unfold decompOp
    rw [if_neg (by decide), if_pos rfl, M.get_bind_apply]
    by_cases hs : 8 > p.olen
    · rw [if_pos hs]; exact .inr ⟨by simp; omega, _, rfl⟩
    · rw [if_neg hs]
      obtain ⟨p2, h2, hi2, ho2, hr2, hl2⟩ := emit_ok hp (bs := List.replicate 8 0#8) (by simp; omega)
      exact .inl ⟨by simp; omega, p2, h2, hi2, hl2, hr2.trans hR, ho2⟩
  | @short bs =>
    show Decides (decompOp e 0x1d p) p R _
    unfold decompOp
    rw [if_neg (by decide), if_neg (by decide), if_pos rfl]
    have hv' : 1 ≤ bs.length ∧ bs.length ≤ 7 := hv
    simp only [opTail, List.append_assoc] at hR
    obtain ⟨v, p1, h1, hvk, hi1, hr1, hou1, hol1, hout1, hb1⟩ :=
      nextBits_of e (n := 3) (by omega) (by omega) hp (show bs.length < 2 ^ 3 by omega) hR
    rw [M.bind_ok h1, hvk, if_neg (by omega), M.get_bind_apply]
    by_cases hs : bs.length > p1.olen
    · rw [if_pos hs]; exact .inr ⟨by simp; omega, _, rfl⟩
    · rw [if_neg hs]
      obtain ⟨p2, h2, hi2, hl2, hr2, ho2⟩ := doShort_of e bs hi1 (by omega) hr1
      exact .inl ⟨by simp; omega, p2, h2, hi2, by rw [hl2, hb1], hr2, by rw [ho2, hou1]⟩

/-! ## The loop -/

theorem five_le_bits (op : Op) : 5 ≤ op.bits.length := by
  rw [op_bits_eq]; simp

/-- What the main loop can do. -/
inductive LoopRes (p : Decomp) : Outcome Decomp Unit → Prop
  | ok {p' : Decomp} {ops : List Op} : p'.DInv → p'.buf.length = p.buf.length →
      (∀ op ∈ ops, op.Valid) → p.rest = ops.flatMap Op.bits ++ (bitsOf 5 0x1e ++ p'.rest) →
      Run p.outp ops p'.outp → LoopRes p (.ok () p')
  | err {er : Errno} {p' : Decomp} : p'.buf.length = p.buf.length → LoopRes p (.err er p')
  | ub {ops : List Op} {n : Nat} {R : List Bool} {out : List Byte} : (∀ op ∈ ops, op.Valid) →
      p.rest = ops.flatMap Op.bits ++ ((Op.rep n).bits ++ R) → Run p.outp ops out →
      RepeatUB p.buf.length out n → LoopRes p .ub

theorem decompLoop_res (e : Endian) (fuel : Nat) {p : Decomp} (hp : p.DInv)
    (hf : p.rest.length < 5 * fuel) : LoopRes p (decompLoop e fuel p) := by
  induction fuel generalizing p with
  | zero => omega
  | succ fuel ih =>
    rw [decompLoop]
    rcases nextBits_step e (n := 5) (by omega) (by omega) hp with
      ⟨v, p1, h1, hi1, hl1, hv, hr, ho1, hol, hout, hbuf⟩ | ⟨er, p1, h1, hl⟩
    · rw [M.bind_ok h1]
      by_cases hend : v.toNat = 0x1E
      · rw [if_pos hend]
        refine .ok (ops := []) hi1 hl1 (by simp) ?_ ?_
        · rw [hr, hend]; rfl
        · rw [ho1]; exact .nil
      rw [if_neg hend]
      rcases decompOp_step e hv hend hi1 with (⟨_, p2, h2, hi2, hl2, op, hval, hb, hst⟩ | ⟨er, p2, h2, hl⟩) | ⟨hub, n, R, hb, hrub⟩
      · rw [M.bind_ok h2]
        have hr2 : p.rest = op.bits ++ p2.rest := by rw [hr, hb]
        have hlen : p.rest.length = op.bits.length + p2.rest.length := by rw [hr2]; simp
        have := five_le_bits op
        have hres := ih hi2 (by omega)
        generalize decompLoop e fuel p2 = x at hres
        rw [ho1] at hst
        cases hres with
        | @ok p' ops hi hl hvs hrest hrun =>
          refine .ok (ops := op :: ops) hi (hl.trans (hl2.trans hl1)) ?_ ?_ (.cons hst hrun)
          · intro o ho; rcases List.mem_cons.1 ho with rfl | h
            · exact hval
            · exact hvs o h
          · rw [hr2, hrest]; simp
        | err hl => exact .err (hl.trans (hl2.trans hl1))
        | @ub ops n R out hvs hrest hrun hub =>
          rw [hl2, hl1] at hub
          refine .ub (ops := op :: ops) (R := R) ?_ ?_ (.cons hst hrun) hub
          · intro o ho; rcases List.mem_cons.1 ho with rfl | h
            · exact hval
            · exact hvs o h
          · rw [hr2, hrest]; simp
      · rw [M.bind_err h2]; exact .err (hl.trans hl1)
      · rw [M.bind_def, hub]
        simp only
        rw [hl1, ho1] at hrub
        exact .ub (ops := []) (by simp) (by rw [hr, hb]; rfl) .nil hrub
    · rw [M.bind_err h1]; exact .err hl

theorem _root_.Lib842.Spec.OpStep.length_le {a b : List Byte} {op : Op} (h : OpStep a op b) :
    a.length ≤ b.length := by
  cases h with
  | template h => exact h.length_le
  | _ => simp

theorem _root_.Lib842.Spec.Run.length_le {a b : List Byte} {ops : List Op} (h : Run a ops b) :
    a.length ≤ b.length := by
  induction h with
  | nil => exact Nat.le_refl _
  | cons h1 _ ih => exact Nat.le_trans h1.length_le ih

/-- Running a valid op sequence. -/
theorem decompLoop_run (e : Endian) (ops : List Op) (hval : ∀ op ∈ ops, op.Valid) {p : Decomp}
    (hp : p.DInv) {R : List Bool} (hR : p.rest = ops.flatMap Op.bits ++ R) {o : List Byte}
    (hrun : Run p.outp ops o) :
    (o.length ≤ p.buf.length ∧ ∃ p', p'.DInv ∧ p'.buf.length = p.buf.length ∧ p'.rest = R ∧
      p'.outp = o ∧ ∀ f, decompLoop e (f + ops.length) p = decompLoop e f p') ∨
    (p.buf.length < o.length ∧ ∃ p', ∀ f, decompLoop e (f + ops.length) p = .err .ENOSPC p') := by
  induction ops generalizing p with
  | nil =>
    cases hrun
    have := hp.o
    have := hp.length_outp
    exact .inl ⟨by omega, p, hp, rfl, by simpa using hR, rfl, fun f => rfl⟩
  | cons op ops ih =>
    have hval' : ∀ op ∈ ops, op.Valid := fun o ho => hval o (List.mem_cons_of_mem _ ho)
    have hv := hval op (List.mem_cons_self ..)
    cases hrun with
    | @cons _ _ o1 _ _ h1 h2 =>
      rw [List.flatMap_cons, op_bits_eq, List.append_assoc, List.append_assoc] at hR
      obtain ⟨hc, hne⟩ := opCode_lt hv
      obtain ⟨v, p1, hn1, hvk, hi1, hr1, hou1, hol1, hout1, hb1⟩ :=
        nextBits_of e (n := 5) (by omega) (by omega) hp (show _ < 2 ^ 5 from hc) hR
      rw [← hou1] at h1
      have hstep : ∀ f, decompLoop e (f + (op :: ops).length) p =
          (decompOp e (opCode op) >>= fun _ => decompLoop e (f + ops.length)) p1 := by
        intro f
        rw [List.length_cons, ← Nat.add_assoc, decompLoop, M.bind_ok hn1, hvk, if_neg hne]
      rcases decompOp_of e hv hi1 hr1 h1 with ⟨hfit, p2, hd, hi2, hl2, hr2, ho2⟩ | ⟨hfull, p2, hd⟩
      · rw [hb1] at hl2
        rw [← ho2] at h2
        rcases ih hval' hi2 hr2 h2 with ⟨hc2, p3, hi3, hl3, hr3, ho3, hf⟩ | ⟨hc2, p3, hf⟩
        · refine .inl ⟨by omega, p3, hi3, hl3.trans hl2, hr3, ho3, fun f => ?_⟩
          rw [hstep, M.bind_ok hd, hf]
        · refine .inr ⟨by omega, p3, fun f => ?_⟩
          rw [hstep, M.bind_ok hd, hf]
      · rw [hb1] at hfull
        have := h2.length_le
        refine .inr ⟨by omega, p2, fun f => ?_⟩
        rw [hstep, M.bind_err hd]

theorem length_flatMap_bits (ops : List Op) : 5 * ops.length ≤ (ops.flatMap Op.bits).length := by
  induction ops with
  | nil => simp
  | cons op ops ih =>
    have := five_le_bits op
    simp; simp at ih; omega

theorem decompLoop_of (e : Endian) {fuel : Nat} (ops : List Op) (hval : ∀ op ∈ ops, op.Valid)
    {p : Decomp} (hp : p.DInv) {R : List Bool}
    (hR : p.rest = ops.flatMap Op.bits ++ (bitsOf 5 0x1e ++ R))
    (hf : p.rest.length < 5 * fuel) {o : List Byte} (hrun : Run p.outp ops o) :
    Decides (decompLoop e fuel p) p R o := by
  have hlen := length_flatMap_bits ops
  have hl : p.rest.length = (ops.flatMap Op.bits).length + (5 + R.length) := by rw [hR]; simp
  obtain ⟨f, rfl⟩ : ∃ f, fuel = (f + 1) + ops.length := ⟨fuel - ops.length - 1, by omega⟩
  rcases decompLoop_run e ops hval hp hR hrun with ⟨hc, p1, hi1, hl1, hr1, ho1, hf1⟩ | ⟨hc, p1, hf1⟩
  · rw [hf1, decompLoop]
    obtain ⟨v, p2, hn1, hvk, hi2, hr2, hou2, hol2, hout2, hb2⟩ :=
        nextBits_of e (n := 5) (by omega) (by omega) hi1 (show 0x1e < 2 ^ 5 by omega) hr1
    rw [M.bind_ok hn1, hvk, if_pos rfl]
    exact .inl ⟨hc, p2, rfl, hi2, by rw [hb2, hl1], hr2, by rw [hou2, ho1]⟩
  · exact .inr ⟨hc, p1, hf1 _⟩

theorem decompLoop_ub (e : Endian) {fuel : Nat} (ops : List Op) (hval : ∀ op ∈ ops, op.Valid)
    {p : Decomp} (hp : p.DInv) {n : Nat} {R : List Bool}
    (hR : p.rest = ops.flatMap Op.bits ++ ((Op.rep n).bits ++ R))
    (hf : p.rest.length < 5 * fuel) {o : List Byte} (hrun : Run p.outp ops o)
    (hub : RepeatUB p.buf.length o n) :
    decompLoop e fuel p = .ub := by
  have hlen := length_flatMap_bits ops
  have hl : p.rest.length = (ops.flatMap Op.bits).length + ((Op.rep n).bits.length + R.length) := by
    rw [hR]; simp
  obtain ⟨f, rfl⟩ : ∃ f, fuel = (f + 1) + ops.length := ⟨fuel - ops.length - 1, by omega⟩
  obtain ⟨hn, hpos, h8, hcap⟩ := hub
  rcases decompLoop_run e ops hval hp hR hrun with ⟨hc, p1, hi1, hl1, hr1, ho1, hf1⟩ | ⟨hc, p1, hf1⟩
  · rw [hf1, decompLoop]
    rw [Op.bits, List.append_assoc] at hr1
    obtain ⟨v, p2, hn1, hvk, hi2, hr2, hou2, hol2, hout2, hb2⟩ :=
        nextBits_of e (n := 5) (by omega) (by omega) hi1 (show 0x1b < 2 ^ 5 by omega) hr1
    rw [M.bind_ok hn1, hvk, if_neg (by omega)]
    have : decompOp e 0x1b p2 = .ub := by
      unfold decompOp
      rw [if_pos rfl]
      obtain ⟨v, p3, hn3, hvk, hi3, hr3, hou3, hol3, hout3, hb3⟩ :=
        nextBits_of e (n := 6) (by omega) (by omega) hi2 (show n < 2 ^ 6 by omega) hr2
      have hl3 := hi3.length_outp
      have ho3 := hi3.o
      rw [hou3, hou2, ho1] at hl3
      rw [hb3, hb2, hl1] at ho3
      rw [M.bind_ok hn3, M.get_bind_apply, if_neg (by omega), hvk, if_neg (by omega)]
      exact doRepeat_ub _ (by omega)
    rw [M.bind_def, this]
  · omega

/-! ## The entry point -/

theorem decompInit_inv (inp buf : List Byte) : (decompInit inp buf).DInv :=
  ⟨⟨by simp [decompInit], by simp [decompInit], by simp [decompInit]⟩, by simp [decompInit]⟩

theorem decompInit_rest (inp buf : List Byte) : (decompInit inp buf).rest = bytesBits inp := rfl
theorem decompInit_outp (inp buf : List Byte) : (decompInit inp buf).outp = [] := rfl
theorem decompInit_buf (inp buf : List Byte) : (decompInit inp buf).buf = buf := rfl

/-- The part of `sw842_decompress` after the loop. -/
theorem decompTail (e : Endian) (addr fuel : Nat) {inp buf : List Byte} {p1 : Decomp}
    (h : decompLoop e fuel (decompInit inp buf) = .ok () p1) (hi : p1.DInv)
    (hl : p1.buf.length = buf.length) :
    sw842DecompressF fuel e addr inp buf =
      match nextBits e 32 p1 with
      | .ok c p2 => if c ≠ (crc p1.outp).setWidth 64 then .ret (some .EINVAL) 0 p2.buf
          else if p1.outp.length > 0xffffffff then .ret (some .ENOSPC) 0 p2.buf
          else .ret none p1.outp.length p2.buf
      | .err er p2 => .ret (some er) 0 p2.buf
      | .ub => .ub
      | .timeout => .timeout := by
  unfold sw842DecompressF decompBody
  rw [M.bind_ok h]
  rcases nextBits_step e (n := 32) (by omega) (by omega) hi with
      ⟨v, p2, h1, hi1, hl1, hv, hr, ho1, hol, hout, hbuf⟩ | ⟨er, p2, h1, hl⟩
  · rw [M.bind_ok h1, h1, M.get_bind_apply]
    have ho := hi1.o
    have hlo := hi1.length_outp
    have hlen : buf.length - p2.olen = p1.outp.length := by rw [← ho1, hlo]; omega
    rw [M.access_bind_some (g := fun p : Decomp => crc32be e addr 0#32 p.buf (buf.length - p.olen))
      (a := crc p1.outp) (by
        rw [crc32be_eq e addr p2.buf _ (by omega)]
        congr 2
        rw [← ho1, Decomp.outp]; congr 1; omega)]
    rw [hlen]
    by_cases hc : v ≠ (crc p1.outp).setWidth 64
    · simp only [if_pos hc]; rfl
    · simp only [if_neg hc]
      by_cases hm : p1.outp.length > 0xffffffff
      · simp only [if_pos hm]; rfl
      · simp only [if_neg hm]; rfl
  · rw [M.bind_err h1, h1]

theorem setWidth_crc (c : BitVec 32) : (c.setWidth 64 : BitVec 64).toNat = c.toNat := by
  rw [BitVec.toNat_setWidth, Nat.mod_eq_of_lt]
  exact Nat.lt_trans c.isLt (by decide)

/-- Everything `sw842_decompress` can do. -/
inductive CallRes (inp buf : List Byte) : Call → Prop
  | ok {data b : List Byte} : Decodes inp data → data.length ≤ buf.length →
      data.length ≤ 0xffffffff → b.length = buf.length → b.take data.length = data →
      CallRes inp buf (.ret none data.length b)
  | err {er : Errno} {b : List Byte} : b.length = buf.length → CallRes inp buf (.ret (some er) 0 b)
  | ub {ops : List Op} {n : Nat} {R : List Bool} {out : List Byte} : Expands ops out →
      bytesBits inp = ops.flatMap Op.bits ++ ((Op.rep n).bits ++ R) →
      RepeatUB buf.length out n → CallRes inp buf .ub

theorem swDecompF_res (e : Endian) (addr fuel : Nat) (inp buf : List Byte)
    (hf : 8 * inp.length < 5 * fuel) : CallRes inp buf (sw842DecompressF fuel e addr inp buf) := by
  have hres := decompLoop_res e fuel (decompInit_inv inp buf) (by rw [decompInit_rest]; simpa using hf)
  generalize hx : decompLoop e fuel (decompInit inp buf) = x at hres
  cases hres with
  | @ok p1 ops hi hl hvs hrest hrun =>
    rw [decompInit_rest] at hrest
    rw [decompInit_outp] at hrun
    rw [decompInit_buf] at hl
    rw [decompTail e addr fuel hx hi hl]
    rcases nextBits_step e (n := 32) (by omega) (by omega) hi with
      ⟨v, p2, h1, hi1, hl1, hv, hr, ho1, hol, hout, hbuf⟩ | ⟨er, p2, h1, hl1⟩
    · rw [h1]
      simp only
      by_cases hc : v ≠ (crc p1.outp).setWidth 64
      · rw [if_pos hc]; exact .err (hl1.trans hl)
      rw [if_neg hc]
      by_cases hm : p1.outp.length > 0xffffffff
      · rw [if_pos hm]; exact .err (hl1.trans hl)
      rw [if_neg hm]
      have hv : v.toNat = (crc p1.outp).toNat := by
        rw [not_not] at hc; rw [hc, setWidth_crc]
      have hle : p1.outp.length ≤ buf.length := by
        rw [hi.length_outp, ← hl]; have := hi.o; omega
      refine .ok ⟨ops, p2.rest, ⟨hvs, hrun⟩, ?_⟩ hle (by omega) (hl1.trans hl) ?_
      · rw [hrest, hr, hv, trailer]; simp only [List.append_assoc]
      · rw [hi.length_outp, hbuf]; rfl
    · rw [h1]; exact .err (hl1.trans hl)
  | err hl =>
    unfold sw842DecompressF decompBody
    rw [M.bind_err hx]
    exact .err hl
  | ub hvs hrest hrun hub =>
    unfold sw842DecompressF decompBody
    rw [M.bind_def, hx]
    exact .ub ⟨hvs, hrun⟩ hrest hub

/-- A complete op sequence followed by the end marker and 32 more bits. -/
theorem swDecompF_of (e : Endian) (addr fuel : Nat) (inp buf : List Byte)
    (hf : 8 * inp.length < 5 * fuel) {ops : List Op} {data : List Byte} (hexp : Expands ops data)
    {c : BitVec 32} {R : List Bool}
    (hin : bytesBits inp = ops.flatMap Op.bits ++ (bitsOf 5 0x1e ++ (bitsOf 32 c.toNat ++ R))) :
    ∃ b, b.length = buf.length ∧ (data.length ≤ buf.length → b.take data.length = data) ∧
      sw842DecompressF fuel e addr inp buf =
        if buf.length < data.length then .ret (some .ENOSPC) 0 b
        else if c ≠ crc data then .ret (some .EINVAL) 0 b
        else if data.length > 0xffffffff then .ret (some .ENOSPC) 0 b
        else .ret none data.length b := by
  have hres := swDecompF_res e addr fuel inp buf hf
  have hd := decompLoop_of e (fuel := fuel) ops hexp.1 (decompInit_inv inp buf)
    (by rw [decompInit_rest, hin]) (by rw [decompInit_rest]; simpa using hf) hexp.2
  rcases hd with ⟨hle, p1, h1, hi1, hl1, hr1, ho1⟩ | ⟨hlt, p1, h1⟩
  · rw [decompInit_buf] at hl1 hle
    rw [decompTail e addr fuel h1 hi1 hl1]
    obtain ⟨v, p2, hn1, hvk, hi2, hr2, hou2, hol2, hout2, hb2⟩ :=
      nextBits_of e (n := 32) (by omega) (by omega) hi1 c.isLt hr1
    rw [hn1]
    have hvc : v = c.setWidth 64 := BitVec.eq_of_toNat_eq (by rw [hvk, setWidth_crc])
    have hiff : v ≠ (crc p1.outp).setWidth 64 ↔ c ≠ crc data := by
      rw [ho1, hvc, not_iff_not]
      constructor
      · intro h
        apply BitVec.eq_of_toNat_eq
        rw [← setWidth_crc c, h, setWidth_crc]
      · rintro rfl; rfl
    refine ⟨p2.buf, by rw [hb2, hl1], fun _ => ?_, ?_⟩
    · rw [hb2, ← ho1, hi1.length_outp]; rfl
    · rw [if_neg (by omega)]
      simp only
      rw [ho1] at hiff ⊢
      by_cases hc : c ≠ crc data
      · rw [if_pos hc, if_pos (hiff.2 hc)]
      · rw [if_neg hc, if_neg (fun h => hc (hiff.1 h))]
  · rw [decompInit_buf] at hlt
    have : sw842DecompressF fuel e addr inp buf = .ret (some .ENOSPC) 0 p1.buf := by
      unfold sw842DecompressF decompBody
      rw [M.bind_err h1]
    rw [this] at hres ⊢
    cases hres with
    | err hl => exact ⟨p1.buf, hl, fun h => by omega, by rw [if_pos hlt]⟩

theorem swDecompF_ub (e : Endian) (addr fuel : Nat) (inp buf : List Byte)
    (hf : 8 * inp.length < 5 * fuel) {ops : List Op} {out : List Byte} (hexp : Expands ops out)
    {n : Nat} {R : List Bool}
    (hin : bytesBits inp = ops.flatMap Op.bits ++ ((Op.rep n).bits ++ R))
    (hub : RepeatUB buf.length out n) : sw842DecompressF fuel e addr inp buf = .ub := by
  have := decompLoop_ub e (fuel := fuel) ops hexp.1 (decompInit_inv inp buf)
    (by rw [decompInit_rest, hin]) (by rw [decompInit_rest]; simpa using hf) hexp.2 hub
  unfold sw842DecompressF decompBody
  rw [M.bind_def, this]

theorem decompLoop_mono (e : Endian) (fuel : Nat) (p : Decomp) (h : decompLoop e fuel p ≠ .timeout) :
    decompLoop e (fuel + 1) p = decompLoop e fuel p := by
  induction fuel generalizing p with
  | zero => exact absurd rfl h
  | succ fuel ih =>
    rw [decompLoop, decompLoop, M.bind_def, M.bind_def]
    rw [decompLoop, M.bind_def] at h
    cases hx : nextBits e 5 p with
    | ok v p1 =>
      rw [hx] at h
      simp only at h ⊢
      by_cases he : v.toNat = 0x1E
      · rw [if_pos he, if_pos he]
      · rw [if_neg he] at h
        rw [if_neg he, if_neg he]
        rw [M.bind_def] at h ⊢
        rw [M.bind_def]
        cases hy : decompOp e v.toNat p1 with
        | ok a p2 => rw [hy] at h; exact ih p2 h
        | _ => rfl
    | _ => rfl

theorem swDecompF_fuel (e : Endian) (addr : Nat) (inp buf : List Byte) {f1 f2 : Nat}
    (h1 : 8 * inp.length < 5 * f1) (h12 : f1 ≤ f2) :
    sw842DecompressF f2 e addr inp buf = sw842DecompressF f1 e addr inp buf := by
  induction f2, h12 using Nat.le_induction with
  | base => rfl
  | succ f2 h ih =>
    rw [← ih]
    have hres := decompLoop_res e f2 (decompInit_inv inp buf)
      (by rw [decompInit_rest]; simp; omega)
    have : decompLoop e (f2 + 1) (decompInit inp buf) = decompLoop e f2 (decompInit inp buf) := by
      apply decompLoop_mono
      intro h; rw [h] at hres; cases hres
    unfold sw842DecompressF decompBody
    rw [M.bind_def, M.bind_def, this]

end Lib842
