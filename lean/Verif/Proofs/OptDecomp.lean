import Verif.Model.OptDecomp
import Verif.Proofs.Window
import Verif.Proofs.DecLoop
import Verif.Proofs.RefComp
/-!
# The optimized decompressor against the format
-/

namespace Lib842
open Spec

namespace ODecomp

/-- The part of the input the word-oriented reader can reach. -/
def words (inp : List Byte) : List Byte := inp.take (8 * (inp.length / 8))

def rest (p : ODecomp) : List Bool :=
  winBits p.buffer p.bits ++ (bytesBits (words p.inp)).drop (64 * p.word)

def outp (p : ODecomp) : List Byte := p.buf.take p.out

structure OInv (p : ODecomp) : Prop where
  ilen : p.ilen = p.inp.length
  olen : p.olen = p.buf.length
  word : p.word ≤ p.inp.length / 8
  win : WinOk p.buffer p.bits
  out : p.out ≤ p.buf.length

theorem OInv.length_outp {p : ODecomp} (h : p.OInv) : p.outp.length = p.out := by
  have := h.out
  simp [outp]; omega

/-- Output side unchanged. -/
structure SameOut (p p' : ODecomp) : Prop where
  inp : p'.inp = p.inp
  ilen : p'.ilen = p.ilen
  buf : p'.buf = p.buf
  out : p'.out = p.out
  olen : p'.olen = p.olen

theorem SameOut.outp {p p' : ODecomp} (h : SameOut p p') : p'.outp = p.outp := by
  unfold ODecomp.outp; rw [h.buf, h.out]

theorem setError_ne (er : Errno) (p : ODecomp) : (p.setError er).errorcode ≠ none := by
  unfold setError
  split <;> simp_all

theorem setError_eq (er : Errno) (p : ODecomp) :
    p.setError er = { p with errorcode := some (p.errorcode.getD er) } := by
  unfold setError
  cases p
  split <;> simp_all

end ODecomp

open ODecomp

theorem length_words (inp : List Byte) : (ODecomp.words inp).length = 8 * (inp.length / 8) := by
  simp [ODecomp.words]; omega

theorem load64_words (e : Endian) {inp : List Byte} {k : Nat} (h : k < inp.length / 8) :
    ∃ v, load64 e inp (8 * k) = some v ∧ (bytesBits (ODecomp.words inp)).drop (64 * k) =
      bitsOf 64 (swapBe64 e v).toNat ++ (bytesBits (ODecomp.words inp)).drop (64 * (k + 1)) := by
  obtain ⟨v, h1, h2⟩ := load64_word e (m := inp) (k := k) (by omega)
  exact ⟨v, h1, h2 _ (by omega)⟩

theorem readBits_spec (e : Endian) {n : Nat} (hn1 : 1 ≤ n) (hn : n ≤ 64) {p : ODecomp} (hp : p.OInv) :
    ∃ v p', readBits e n p = .ok v p' ∧ p'.OInv ∧ SameOut p p' ∧
      ((v.toNat < 2 ^ n ∧ p.rest = bitsOf n v.toNat ++ p'.rest ∧ p'.errorcode = p.errorcode) ∨
       (p.rest.length < n ∧ p'.errorcode ≠ none ∧
          ∀ er, p.errorcode = some er → p'.errorcode = some er)) := by
  unfold readBits
  rw [M.get_bind_apply]
  by_cases hb : p.bits < n
  · rw [if_pos hb]
    unfold readWord
    by_cases hw : (p.word + 1) * 8 > p.ilen
    · obtain ⟨v, b', h1, h2, h3, h4⟩ := winMiss_bits (w := 0#64) hp.win hb hn
      refine ⟨v, { p.setError .EINVAL with buffer := b', bits := p.bits + 64 - n }, ?_, ?_, ?_, .inr ⟨?_, ?_, ?_⟩⟩
      · rw [M.bind_ok (a := 0#64) (s' := p.setError .EINVAL) (by rw [M.get_bind_apply, if_pos hw]; rfl)]
        rw [M.access_bind_some (g := fun _ => winMiss p.buffer p.bits n 0#64) h1]
        rfl
      · rw [setError_eq]; exact ⟨hp.ilen, hp.olen, hp.word, h3, hp.out⟩
      · rw [setError_eq]; exact ⟨rfl, rfl, rfl, rfl, rfl⟩
      · have := hp.ilen
        have := hp.word
        unfold ODecomp.rest
        simp only [List.length_append, length_winBits, List.length_drop, length_bytesBits, length_words]
        omega
      · exact setError_ne _ p
      · intro er her
        rw [setError_eq]; simp [her]
    · have := hp.ilen
      obtain ⟨w, hl, hd⟩ := load64_words e (inp := p.inp) (k := p.word) (by omega)
      obtain ⟨v, b', h1, h2, h3, h4⟩ := winMiss_bits (w := swapBe64 e w) hp.win hb hn
      refine ⟨v, { p with word := p.word + 1, buffer := b', bits := p.bits + 64 - n }, ?_, ?_, ?_,
        .inl ⟨h2, ?_, rfl⟩⟩
      · rw [M.bind_ok (a := swapBe64 e w) (s' := { p with word := p.word + 1 })
          (by rw [M.get_bind_apply, if_neg hw,
                M.access_bind_some (g := fun p : ODecomp => load64 e p.inp (8 * p.word)) hl]; rfl)]
        rw [M.access_bind_some (g := fun _ => winMiss p.buffer p.bits n (swapBe64 e w)) h1]
        rfl
      · exact ⟨hp.ilen, hp.olen, by show p.word + 1 ≤ p.inp.length / 8; omega, h3, hp.out⟩
      · exact ⟨rfl, rfl, rfl, rfl, rfl⟩
      · unfold ODecomp.rest
        rw [hd, ← List.append_assoc, h4, List.append_assoc]
  · rw [if_neg hb]
    obtain ⟨v, b', h1, h2, h3, h4⟩ := winHit_bits hp.win hn1 (by omega)
    refine ⟨v, { p with buffer := b', bits := p.bits - n }, ?_, ?_, ?_, .inl ⟨h2, ?_, rfl⟩⟩
    · rw [M.access_bind_some (g := fun p : ODecomp => winHit p.buffer p.bits n) h1]
      rfl
    · exact ⟨hp.ilen, hp.olen, hp.word, h3, hp.out⟩
    · exact ⟨rfl, rfl, rfl, rfl, rfl⟩
    · unfold ODecomp.rest
      simp only
      rw [h4, List.append_assoc]

/-- `read_bits` on an input known to continue with the `n` bits of `k`. -/
theorem readBits_of (e : Endian) {n : Nat} (hn1 : 1 ≤ n) (hn : n ≤ 64) {p : ODecomp} (hp : p.OInv)
    {k : Nat} (hk : k < 2 ^ n) {R : List Bool} (hR : p.rest = bitsOf n k ++ R) :
    ∃ v p', readBits e n p = .ok v p' ∧ p'.OInv ∧ SameOut p p' ∧ v.toNat = k ∧ p'.rest = R ∧
      p'.errorcode = p.errorcode := by
  obtain ⟨v, p', h1, hi, hs, h | h⟩ := readBits_spec e hn1 hn hp
  · obtain ⟨hv, hr, he⟩ := h
    rw [hR] at hr
    have := List.append_inj hr (by simp)
    exact ⟨v, p', h1, hi, hs, (bitsOf_inj this.1 hk hv).symm, this.2.symm, he⟩
  · have := h.1
    rw [hR] at this
    simp at this

theorem oemit_ok {p : ODecomp} (hp : p.OInv) {bs : List Byte} (h : p.out + bs.length ≤ p.buf.length) :
    ∃ p', oemit bs p = .ok () p' ∧ p'.OInv ∧ p'.outp = p.outp ++ bs ∧ p'.rest = p.rest ∧
      p'.buf.length = p.buf.length ∧ p'.out = p.out + bs.length ∧ p'.errorcode = p.errorcode := by
  unfold oemit
  rw [M.update_bind_some (g := fun p : ODecomp => (writeBytes p.buf p.out bs).map fun b => { p with buf := b })
    (s' := { p with buf := p.buf.take p.out ++ bs ++ p.buf.drop (p.out + bs.length) })
    (by simp only [writeBytes, if_pos h, Option.map_some])]
  have hl : (p.buf.take p.out ++ bs ++ p.buf.drop (p.out + bs.length)).length = p.buf.length := by
    simp; omega
  refine ⟨_, rfl, ⟨hp.ilen, ?_, hp.word, hp.win, ?_⟩, ?_, rfl, hl, rfl, rfl⟩
  · simp only [hl]; exact hp.olen
  · simp only [hl]; omega
  · unfold ODecomp.outp
    simp only
    rw [List.take_append_of_le_length (by simp; omega), List.take_of_length_le (by simp)]

theorem otake_outp {p : ODecomp} {o n : Nat} (h : o + n ≤ p.out) :
    (p.buf.drop o).take n = (p.outp.drop o).take n := by
  unfold ODecomp.outp
  rw [List.drop_take, List.take_take]
  congr 1; omega

/-- `do_index` -/
theorem odoIndex_spec {n i : Nat} (hn : SizeOk n) (hi : i < 2 ^ indexBits n) {p : ODecomp} (hp : p.OInv)
    (hsp : p.out + n ≤ p.buf.length) :
    ∃ p', odoIndex n i (ringSize n) p = .ok () p' ∧ p'.OInv ∧ p'.rest = p.rest ∧
      p'.buf.length = p.buf.length ∧
      ((∃ o, RingRef p.outp.length n i o ∧ p'.outp = p.outp ++ (p.outp.drop o).take n ∧
          p'.out = p.out + n ∧ p'.errorcode = p.errorcode) ∨
       ((¬ ∃ o, RingRef p.outp.length n i o) ∧ p' = p.setError .EINVAL)) := by
  rw [hp.length_outp]
  unfold odoIndex
  rw [M.get_bind_apply]
  by_cases hoff : indexOffset i n (ringSize n) (roundDown p.out 8) + n > roundDown p.out 8
  · refine ⟨p.setError .EINVAL, by rw [if_pos hoff]; rfl, ?_, ?_, ?_, .inr ⟨?_, rfl⟩⟩
    · rw [setError_eq]; exact ⟨hp.ilen, hp.olen, hp.word, hp.win, hp.out⟩
    · rw [setError_eq]; rfl
    · rw [setError_eq]
    · rintro ⟨o, ho⟩
      have := indexOffset_complete hn hi ho
      omega
  · rw [if_neg hoff]
    have hrd : roundDown p.out 8 ≤ p.out := by unfold roundDown; omega
    have hle : indexOffset i n (ringSize n) (roundDown p.out 8) + n ≤ p.out := by omega
    have ho := hp.out
    rw [M.access_bind_some (g := fun q : ODecomp => readBytes q.buf _ n) (readBytes_ok (by omega))]
    have hlen : ((p.buf.drop (indexOffset i n (ringSize n) (roundDown p.out 8))).take n).length = n := by
      simp; omega
    obtain ⟨p2, h2, hi2, ho2, hr2, hl2, hout2, he2⟩ := oemit_ok hp
      (bs := (p.buf.drop (indexOffset i n (ringSize n) (roundDown p.out 8))).take n)
      (by rw [hlen]; exact hsp)
    refine ⟨p2, h2, hi2, hr2, hl2, .inl ⟨_, indexOffset_sound hn hi (by omega), ?_, ?_, he2⟩⟩
    · rw [ho2, otake_outp hle]
    · rw [hout2, hlen]

/-- `do_data` -/
theorem odoData_spec (e : Endian) {n : Nat} (hn : SizeOk n) {v : BitVec 64} (hv : v.toNat < 2 ^ (n * 8))
    {p : ODecomp} (hp : p.OInv) (hsp : p.out + n ≤ p.buf.length) :
    ∃ bs p', bs.length = n ∧ bytesBits bs = bitsOf (n * 8) v.toNat ∧ odoData e n v p = .ok () p' ∧
      p'.OInv ∧ p'.rest = p.rest ∧ p'.buf.length = p.buf.length ∧ p'.outp = p.outp ++ bs ∧
      p'.out = p.out + n ∧ p'.errorcode = p.errorcode := by
  have : ∃ bs : List Byte, bs.length = n ∧ bytesBits bs = bitsOf (n * 8) v.toNat ∧
      odoData e n v = oemit bs := by
    unfold odoData
    rcases hn with rfl | rfl | rfl
    · refine ⟨wordBytes16 .big (v.setWidth 16), rfl, ?_, ?_⟩
      · rw [bytesBits_wordBytes16, BitVec.toNat_setWidth, Nat.mod_eq_of_lt hv]
      · rw [if_pos rfl, wordBytes16_swap]
    · refine ⟨wordBytes32 .big (v.setWidth 32), rfl, ?_, ?_⟩
      · rw [bytesBits_wordBytes32, BitVec.toNat_setWidth, Nat.mod_eq_of_lt hv]
      · rw [if_neg (by omega), if_pos rfl, wordBytes32_swap]
    · refine ⟨wordBytes64 .big v, rfl, ?_, ?_⟩
      · rw [bytesBits_wordBytes64]
      · rw [if_neg (by omega), if_neg (by omega), if_pos rfl, wordBytes64_swap]
  obtain ⟨bs, hl, hb, heq⟩ := this
  obtain ⟨p2, h2, hi2, ho2, hr2, hl2, hout2, he2⟩ := oemit_ok hp (bs := bs) (by omega)
  exact ⟨bs, p2, hl, hb, by rw [heq]; exact h2, hi2, hr2, hl2, ho2, by rw [hout2, hl], he2⟩

/-! ## Templates -/

def actionsSize (acts : List Action) : Nat := (acts.map actionSize).sum

/-- The statements of a case extract the arguments of the actions, in order, from the
low `m` bits of `rep`. -/
inductive RowOk : List Action → List OptStep → Nat → Prop
  | nil : RowOk [] [] 0
  | data {n m acts steps} (hn : SizeOk n) : RowOk acts steps m → m < 64 →
      RowOk (.D n :: acts) (.data n m (n * 8) :: steps) (n * 8 + m)
  | index {n m acts steps} (hn : SizeOk n) : RowOk acts steps m → m < 64 →
      RowOk (.I n :: acts) (.index n m (indexBits n) (ringSize n) :: steps) (indexBits n + m)

theorem optSwitch_ok : ∀ c, c < 26 → ∃ acts n steps, templates[c]? = some acts ∧
    optSwitch[c]? = some (n, steps) ∧ RowOk acts steps n ∧ actionsSize acts = 8 ∧ 1 ≤ n ∧ n ≤ 64 := by
  intro c hc
  have D2 := fun {m acts steps} => @RowOk.data 2 m acts steps (.inl rfl)
  have D4 := fun {m acts steps} => @RowOk.data 4 m acts steps (.inr (.inl rfl))
  have D8 := fun {m acts steps} => @RowOk.data 8 m acts steps (.inr (.inr rfl))
  have I2 := fun {m acts steps} => @RowOk.index 2 m acts steps (.inl rfl)
  have I4 := fun {m acts steps} => @RowOk.index 4 m acts steps (.inr (.inl rfl))
  have I8 := fun {m acts steps} => @RowOk.index 8 m acts steps (.inr (.inr rfl))
  have hlt : ∀ {n : Nat}, (n < 64) = (n < 64) := rfl
  interval_cases c <;> refine ⟨_, _, _, rfl, rfl, ?_, rfl, by decide, by decide⟩ <;>
    (repeat' first
      | exact RowOk.nil
      | apply D2 | apply D4 | apply D8 | apply I2 | apply I4 | apply I8
      | decide)

theorem field_spec (rep : BitVec 64) {m w : Nat} (hm : m < 64) (hw : w ≤ 64) :
    ∃ v, field rep m w = some v ∧ v.toNat < 2 ^ w ∧
      bitsOf (w + m) rep.toNat = bitsOf w v.toNat ++ bitsOf m rep.toNat := by
  refine ⟨(rep >>> m) &&& BitVec.ofNat 64 (2 ^ w - 1), ?_, ?_, ?_⟩
  · unfold field; rw [cshr_some (m := m) rfl hm]; rfl
  all_goals
    have hmask : (BitVec.ofNat 64 (2 ^ w - 1)).toNat = 2 ^ w - 1 := by
      rw [BitVec.toNat_ofNat, Nat.mod_eq_of_lt]
      have := Nat.pow_le_pow_right (n := 2) (by omega) hw
      have := Nat.two_pow_pos w
      omega
    have hv : ((rep >>> m) &&& BitVec.ofNat 64 (2 ^ w - 1)).toNat = (rep.toNat >>> m) % 2 ^ w := by
      rw [BitVec.toNat_and, hmask, Nat.and_two_pow_sub_one_eq_mod, BitVec.toNat_ushiftRight]
    rw [hv]
  · exact Nat.mod_lt _ (Nat.two_pow_pos _)
  · rw [bitsOf_mod, bitsOf_append]

theorem SizeOk.bits_le {n : Nat} (h : SizeOk n) : n * 8 ≤ 64 := by
  rcases h with rfl | rfl | rfl <;> omega

theorem optSteps_sound (e : Endian) (rep : BitVec 64) {acts : List Action} {steps : List OptStep} {m : Nat}
    (h : RowOk acts steps m) {p : ODecomp} (hp : p.OInv)
    (hsp : p.out + actionsSize acts ≤ p.buf.length) :
    ∃ p', optSteps e rep steps p = .ok () p' ∧ p'.OInv ∧ p'.rest = p.rest ∧
      p'.buf.length = p.buf.length ∧ (∀ er, p.errorcode = some er → p'.errorcode ≠ none) ∧
      (p'.errorcode = none → p'.out = p.out + actionsSize acts ∧
        ∃ args : List Arg, args.map Arg.action = acts ∧ (∀ a ∈ args, a.Valid) ∧
          bitsOf m rep.toNat = args.flatMap Arg.bits ∧ ArgsRun p.outp args p'.outp) := by
  induction h generalizing p with
  | nil =>
    exact ⟨p, rfl, hp, rfl, rfl, fun er h => by rw [h]; simp,
      fun _ => ⟨rfl, [], rfl, by simp, rfl, .nil⟩⟩
  | @data n m acts steps hn _ hm ih =>
    have hsz : actionsSize (.D n :: acts) = n + actionsSize acts := by simp [actionsSize, actionSize]
    rw [hsz] at hsp ⊢
    rw [optSteps, optStep]
    obtain ⟨v, hf, hv, hb⟩ := field_spec rep hm hn.bits_le
    obtain ⟨bs, p1, hbl, hbb, h1, hi1, hr1, hl1, ho1, hout1, he1⟩ := odoData_spec e hn hv hp (by omega)
    rw [M.bind_assoc', M.access_bind_some (g := fun _ : ODecomp => field rep m (n * 8)) hf, M.bind_ok h1]
    obtain ⟨p2, h2, hi2, hr2, hl2, hst2, hok2⟩ := ih hi1 (by omega)
    refine ⟨p2, h2, hi2, hr2.trans hr1, hl2.trans hl1, ?_, ?_⟩
    · intro er her; exact hst2 er (by rw [he1, her])
    · intro hne
      obtain ⟨hout2, args, hm2, hv2, hb2, hrun2⟩ := hok2 hne
      refine ⟨by omega, .data bs :: args, ?_, forall_cons trivial hv2, ?_, .cons .data ?_⟩
      · simp [Arg.action, hbl, hm2]
      · rw [hb, hb2]; simp [Arg.bits, hbb]
      · rw [← ho1]; exact hrun2
  | @index n m acts steps hn _ hm ih =>
    have hsz : actionsSize (.I n :: acts) = n + actionsSize acts := by simp [actionsSize, actionSize]
    rw [hsz] at hsp ⊢
    rw [optSteps, optStep]
    obtain ⟨v, hf, hv, hb⟩ := field_spec rep hm (indexBits_bounds n).2
    obtain ⟨p1, h1, hi1, hr1, hl1, hcase⟩ := odoIndex_spec hn hv hp (by omega)
    rw [M.bind_assoc', M.access_bind_some (g := fun _ : ODecomp => field rep m (indexBits n)) hf, M.bind_ok h1]
    have hsp1 : p1.out + actionsSize acts ≤ p1.buf.length := by
      rcases hcase with ⟨o, href, ho1, hout1, he1⟩ | ⟨hno, rfl⟩
      · omega
      · rw [setError_eq]; show p.out + _ ≤ p.buf.length; omega
    obtain ⟨p2, h2, hi2, hr2, hl2, hst2, hok2⟩ := ih hi1 hsp1
    refine ⟨p2, h2, hi2, hr2.trans hr1, hl2.trans hl1, ?_, ?_⟩
    · intro er her
      rcases hcase with ⟨o, href, ho1, hout1, he1⟩ | ⟨hno, rfl⟩
      · exact hst2 er (by rw [he1, her])
      · exact hst2 er (by rw [setError_eq]; simp [her])
    · intro hne
      rcases hcase with ⟨o, href, ho1, hout1, he1⟩ | ⟨hno, rfl⟩
      · obtain ⟨hout2, args, hm2, hv2, hb2, hrun2⟩ := hok2 hne
        refine ⟨by omega, .index n v.toNat :: args, ?_, forall_cons hv hv2, ?_, .cons (.index href) ?_⟩
        · simp [Arg.action, hm2]
        · rw [hb, hb2]; simp [Arg.bits]
        · rw [← ho1]; exact hrun2
      · exact absurd hne (hst2 _ (by rw [setError_eq]))

/-- The arguments are determined by the actions and the bits. -/
theorem args_bits_inj {as bs : List Arg} (hacts : as.map Arg.action = bs.map Arg.action)
    (ha : ∀ a ∈ as, a.Valid) (hb : ∀ a ∈ bs, a.Valid)
    {R S : List Bool} (h : as.flatMap Arg.bits ++ R = bs.flatMap Arg.bits ++ S) : as = bs := by
  induction as generalizing bs with
  | nil =>
    cases bs with
    | nil => rfl
    | cons b bs => simp at hacts
  | cons a as ih =>
    cases bs with
    | nil => simp at hacts
    | cons b bs =>
      simp only [List.map_cons, List.cons.injEq] at hacts
      simp only [List.flatMap_cons, List.append_assoc] at h
      have hlen : a.bits.length = b.bits.length := by
        cases a <;> cases b <;> simp_all [Arg.action, Arg.bits]
      have hi := List.append_inj h hlen
      have hab : a = b := by
        have h1 := ha a (List.mem_cons_self ..)
        have h2 := hb b (List.mem_cons_self ..)
        cases a <;> cases b <;> simp only [Arg.action, Action.D.injEq, Action.I.injEq, reduceCtorEq, false_and] at hacts
        · have := bytesBits_inj hi.1; rw [this]
        · obtain ⟨rfl, -⟩ := hacts
          have := bitsOf_inj hi.1 h1 h2
          rw [this]
      subst hab
      rw [ih hacts.2 (fun x hx => ha x (List.mem_cons_of_mem _ hx))
        (fun x hx => hb x (List.mem_cons_of_mem _ hx)) hi.2]

theorem optSteps_of (e : Endian) (rep : BitVec 64) {acts : List Action} {steps : List OptStep} {m : Nat}
    (h : RowOk acts steps m) {p : ODecomp} (hp : p.OInv)
    (hsp : p.out + actionsSize acts ≤ p.buf.length) (herr : p.errorcode = none)
    {args : List Arg} (hacts : args.map Arg.action = acts) (hval : ∀ a ∈ args, a.Valid)
    (hbits : bitsOf m rep.toNat = args.flatMap Arg.bits) {o : List Byte} (hrun : ArgsRun p.outp args o) :
    ∃ p', optSteps e rep steps p = .ok () p' ∧ p'.OInv ∧ p'.rest = p.rest ∧
      p'.buf.length = p.buf.length ∧ p'.errorcode = none ∧ p'.outp = o := by
  induction h generalizing p args with
  | nil =>
    cases args with
    | nil => cases hrun; exact ⟨p, rfl, hp, rfl, rfl, herr, rfl⟩
    | cons a as => simp at hacts
  | @data n m acts steps hn _ hm ih =>
    cases args with
    | nil => simp at hacts
    | cons a as =>
      have hsz : actionsSize (.D n :: acts) = n + actionsSize acts := by simp [actionsSize, actionSize]
      rw [hsz] at hsp
      simp only [List.map_cons, List.cons.injEq] at hacts
      rw [optSteps, optStep]
      obtain ⟨v, hf, hv, hb⟩ := field_spec rep hm hn.bits_le
      obtain ⟨bs, p1, hbl, hbb, h1, hi1, hr1, hl1, ho1, hout1, he1⟩ := odoData_spec e hn hv hp (by omega)
      rw [M.bind_assoc', M.access_bind_some (g := fun _ : ODecomp => field rep m (n * 8)) hf, M.bind_ok h1]
      rw [List.flatMap_cons, hb] at hbits
      cases hrun with
      | @cons _ _ o1 _ _ hst hrun =>
        cases hst with
        | @data bs' =>
          simp only [Arg.action, Action.D.injEq] at hacts
          have hi := List.append_inj hbits (by simp [Arg.bits, hacts.1, Nat.mul_comm])
          have : bs = bs' := bytesBits_inj (by rw [hbb, hi.1]; rfl)
          subst this
          rw [← ho1] at hrun
          obtain ⟨p2, h2, hi2, hr2, hl2, he2, ho2⟩ := ih hi1 (by omega) (by rw [he1, herr]) hacts.2
            (fun x hx => hval x (List.mem_cons_of_mem _ hx)) hi.2 hrun
          exact ⟨p2, h2, hi2, hr2.trans hr1, hl2.trans hl1, he2, ho2⟩
        | index href => simp [Arg.action] at hacts
  | @index n m acts steps hn _ hm ih =>
    cases args with
    | nil => simp at hacts
    | cons a as =>
      have hsz : actionsSize (.I n :: acts) = n + actionsSize acts := by simp [actionsSize, actionSize]
      rw [hsz] at hsp
      simp only [List.map_cons, List.cons.injEq] at hacts
      rw [optSteps, optStep]
      obtain ⟨v, hf, hv, hb⟩ := field_spec rep hm (indexBits_bounds n).2
      obtain ⟨p1, h1, hi1, hr1, hl1, hcase⟩ := odoIndex_spec hn hv hp (by omega)
      rw [M.bind_assoc', M.access_bind_some (g := fun _ : ODecomp => field rep m (indexBits n)) hf, M.bind_ok h1]
      rw [List.flatMap_cons, hb] at hbits
      cases hrun with
      | @cons _ _ o1 _ _ hst hrun =>
        cases hst with
        | data => simp [Arg.action] at hacts
        | @index size i o' href =>
          simp only [Arg.action, Action.I.injEq] at hacts
          obtain ⟨rfl, hacts⟩ := hacts
          have hi := List.append_inj hbits (by simp [Arg.bits])
          have hvi : v.toNat = i := bitsOf_inj hi.1 hv (hval _ (List.mem_cons_self ..))
          rw [hvi] at hcase
          rcases hcase with ⟨o2, href2, ho1, hout1, he1⟩ | ⟨hno, -⟩
          · have : o2 = o' := by
              have hv' : i < 2 ^ indexBits size := hval _ (List.mem_cons_self ..)
              rw [← (indexOffset_complete hn hv' href).1, ← (indexOffset_complete hn hv' href2).1]
            subst this
            rw [← ho1] at hrun
            obtain ⟨p2, h2, hi2, hr2, hl2, he2, ho2⟩ := ih hi1 (by omega) (by rw [he1, herr]) hacts
              (fun x hx => hval x (List.mem_cons_of_mem _ hx)) hi.2 hrun
            exact ⟨p2, h2, hi2, hr2.trans hr1, hl2.trans hl1, he2, ho2⟩
          · exact absurd ⟨_, href⟩ hno

/-! ## Ops -/

theorem odoRepeat_ok (k : Nat) {p : ODecomp} (hp : p.OInv) (h8 : 8 ≤ p.out)
    (hsp : p.out + k * 8 ≤ p.buf.length) :
    ∃ p', odoRepeat k p = .ok () p' ∧ p'.OInv ∧ p'.buf.length = p.buf.length ∧ p'.rest = p.rest ∧
      p'.out = p.out + k * 8 ∧ p'.errorcode = p.errorcode ∧
      p'.outp = p.outp ++ (List.replicate k (p.outp.drop (p.outp.length - 8))).flatten := by
  induction k generalizing p with
  | zero => exact ⟨p, rfl, hp, rfl, rfl, by simp, rfl, by simp⟩
  | succ k ih =>
    have hlo := hp.length_outp
    rw [odoRepeat]
    rw [M.access_bind_some
      (g := fun p : ODecomp => if p.out < 8 then none else readBytes p.buf (p.out - 8) 8)
      (a := (p.buf.drop (p.out - 8)).take 8)
      (by rw [if_neg (by omega), readBytes_ok (by omega)])]
    have hx : (p.buf.drop (p.out - 8)).take 8 = p.outp.drop (p.outp.length - 8) := by
      rw [otake_outp (by omega), hlo, List.take_of_length_le (by simp [hlo]; omega)]
    rw [hx]
    have hlx : (p.outp.drop (p.outp.length - 8)).length = 8 := by simp [hlo]; omega
    obtain ⟨p1, h1, hi1, ho1, hr1, hl1, hout1, he1⟩ := oemit_ok hp (bs := p.outp.drop (p.outp.length - 8))
      (by omega)
    rw [M.bind_ok h1]
    obtain ⟨p2, h2, hi2, hl2, hr2, hout2, he2, ho2⟩ := ih hi1 (by omega) (by omega)
    refine ⟨p2, h2, hi2, hl2.trans hl1, hr2.trans hr1, by omega, he2.trans he1, ?_⟩
    rw [ho2, ho1, drop_last8 _ (by omega) _ rfl, List.replicate_succ, List.flatten_cons,
      List.append_assoc]

theorem checkError_none {p : ODecomp} (h : p.errorcode = none) : checkError p = .ok () p := by
  unfold checkError
  rw [M.get_bind_apply, h]; rfl

theorem checkError_ne {p : ODecomp} (h : p.errorcode ≠ none) : ∃ er, checkError p = .err er p := by
  unfold checkError
  rw [M.get_bind_apply]
  cases hx : p.errorcode with
  | none => exact absurd hx h
  | some er => exact ⟨er, rfl⟩

/-- The view of the optimized decompressor. -/
def optView : DecView ODecomp where
  Inv p := p.OInv ∧ p.errorcode = none ∧ p.out % 8 = 0
  rest := ODecomp.rest
  outp := ODecomp.outp
  buf := ODecomp.buf

theorem optSwitch_none {c : Nat} (h : 26 ≤ c) : optSwitch[c]? = none :=
  List.getElem?_eq_none (by simpa [optSwitch] using h)

theorem optIter_sound (e : Endian) {p : ODecomp} (hp : optView.Inv p) :
    optView.IterRes p (optIter e p) := by
  obtain ⟨hp, herr, h8⟩ := hp
  unfold optIter
  obtain ⟨v, p1, h1, hi1, hs1, hcase⟩ := readBits_spec e (n := 5) (by omega) (by omega) hp
  rw [M.bind_ok h1]
  have hb1 : p1.buf.length = p.buf.length := by rw [hs1.buf]
  rcases hcase with ⟨hv, hr, he⟩ | ⟨_, hne, _⟩
  swap
  · obtain ⟨er, hc⟩ := checkError_ne hne
    rw [M.bind_err hc]
    exact .err (V := optView) hb1
  have herr1 : p1.errorcode = none := he.trans herr
  rw [M.bind_ok (checkError_none herr1), M.get_bind_apply]
  by_cases hsp : (v.toNat < 0x1a ∨ v.toNat = 0x1C) ∧ p1.out + 8 > p1.olen
  · rw [if_pos hsp]; exact .err (V := optView) hb1
  rw [if_neg hsp]
  have hol := hi1.olen
  have h8' : p1.out % 8 = 0 := by rw [hs1.out]; exact h8
  by_cases hend : v.toNat = 0x1E
  · rw [if_pos hend]
    exact .fin (V := optView) ⟨hi1, herr1, h8'⟩ hs1.buf hs1.outp (by rw [hend] at hr; exact hr)
  rw [if_neg hend]
  have hout : p1.outp = p.outp := hs1.outp
  have hv' : v.toNat < 32 := hv
  unfold odoOp
  by_cases hc : v.toNat < 26
  · obtain ⟨acts, n, steps, ht, ho, hrow, hsz, hn1, hn⟩ := optSwitch_ok v.toNat hc
    rw [ho]
    simp only
    obtain ⟨r, p2, h2, hi2, hs2, hcase⟩ := readBits_spec e hn1 hn hi1
    rw [M.bind_assoc', M.bind_ok h2]
    have hb2 : p2.buf.length = p.buf.length := by rw [hs2.buf, hb1]
    have hout2 := hs2.out
    obtain ⟨p3, h3, hi3, hr3, hl3, hst3, hok3⟩ := optSteps_sound e r hrow hi2 (by omega)
    rw [M.bind_ok h3]
    by_cases hne : p3.errorcode = none
    · rw [M.bind_ok (checkError_none hne)]
      rcases hcase with ⟨hrv, hr2, he2⟩ | ⟨_, hne2, _⟩
      · obtain ⟨hout3, args, hm, hval, hbits, hrun⟩ := hok3 hne
        refine .op (V := optView) (op := .template v.toNat args) ⟨hi3, hne, by omega⟩
          (hl3.trans hb2) ⟨by rw [ht, hm], hval⟩ rfl ?_ ?_
        · show p.rest = _ ++ p3.rest
          rw [hr, hr2, hr3, hbits, Op.bits, List.append_assoc]
        · show OpStep p.outp _ p3.outp
          refine .template ?_
          rw [← hout, ← hs2.outp]; exact hrun
      · cases hx : p2.errorcode with
        | none => exact absurd hx hne2
        | some er => exact absurd hne (hst3 er hx)
    · obtain ⟨er, hce⟩ := checkError_ne hne
      rw [M.bind_err hce]
      exact .err (V := optView) (hl3.trans hb2)
  rw [optSwitch_none (by omega)]
  simp only
  by_cases h1b : v.toNat = 0x1B
  · rw [if_pos h1b]
    obtain ⟨r, p2, h2, hi2, hs2, hcase⟩ := readBits_spec e (n := 6) (by omega) (by omega) hi1
    rw [M.bind_assoc', M.bind_ok h2, M.bind_assoc']
    have hb2 : p2.buf.length = p.buf.length := by rw [hs2.buf, hb1]
    rcases hcase with ⟨hrv, hr2, he2⟩ | ⟨_, hne, _⟩
    swap
    · obtain ⟨er, hc⟩ := checkError_ne hne
      rw [M.bind_err hc]
      exact .err (V := optView) hb2
    rw [M.bind_ok (checkError_none (he2.trans herr1)), M.bind_assoc', M.get_bind_apply]
    have hout2 := hs2.out
    have hol2 := hi2.olen
    by_cases hz : p2.out = 0
    · rw [if_pos hz]; exact .err (V := optView) hb2
    rw [if_neg hz]
    by_cases hfull : p2.out + (r.toNat + 1) * 8 > p2.olen
    · rw [if_pos hfull]; exact .err (V := optView) hb2
    rw [if_neg hfull]
    obtain ⟨p3, h3, hi3, hl3, hr3, hout3, he3, ho3⟩ := odoRepeat_ok (r.toNat + 1) hi2 (by omega) (by omega)
    have herr3 : p3.errorcode = none := by rw [he3, he2, herr1]
    rw [M.bind_ok h3, M.bind_ok (checkError_none herr3)]
    refine .op (V := optView) (op := .rep r.toNat) ⟨hi3, herr3, by omega⟩ (hl3.trans hb2) hrv rfl ?_ ?_
    · show p.rest = _ ++ p3.rest
      rw [hr, hr2, hr3, h1b, Op.bits, List.append_assoc]
    · show OpStep p.outp _ p3.outp
      rw [ho3, hs2.outp, hout]
      refine .rep ?_
      rw [hp.length_outp, ← hs1.out, ← hout2]; omega
  rw [if_neg h1b]
  by_cases h1c : v.toNat = 0x1C
  · rw [if_pos h1c]
    obtain ⟨p2, h2, hi2, ho2, hr2, hl2, hout2, he2⟩ := oemit_ok hi1 (bs := List.replicate 8 0#8)
      (by simp; omega)
    have herr2 := he2.trans herr1
    rw [List.length_replicate] at hout2
    rw [M.bind_ok h2, M.bind_ok (checkError_none herr2)]
    refine .op (V := optView) (op := .zeros) ⟨hi2, herr2, by omega⟩ (hl2.trans hb1) trivial rfl ?_ ?_
    · show p.rest = _ ++ p2.rest
      rw [hr, hr2, h1c]; rfl
    · show OpStep p.outp _ p2.outp
      rw [ho2, hout]; exact .zeros
  · rw [if_neg h1c]; exact .err (V := optView) hb1

theorem ArgsRun.length_eq {a b : List Byte} {as : List Arg} (h : ArgsRun a as b) :
    b.length = a.length + actionsSize (as.map Arg.action) := by
  induction h with
  | nil => simp [actionsSize]
  | cons h1 _ ih =>
    cases h1 with
    | data => rw [ih]; simp [actionsSize, actionSize, Arg.action]; omega
    | index href =>
      have := href.2.1
      rw [ih]; simp [actionsSize, actionSize, Arg.action]; omega

theorem flatMap_bits_val {l : List Bool} {n : Nat} (h : l.length = n) :
    ∃ k, k < 2 ^ n ∧ l = bitsOf n k := by
  subst h
  exact ⟨bitsVal l, bitsVal_lt _, (bitsOf_bitsVal l).symm⟩

/-- Length of the arguments of a template case. -/
theorem RowOk.bits_length {acts : List Action} {steps : List OptStep} {m : Nat} (h : RowOk acts steps m)
    {args : List Arg} (hacts : args.map Arg.action = acts) : (args.flatMap Arg.bits).length = m := by
  induction h generalizing args with
  | nil =>
    cases args with
    | nil => rfl
    | cons a as => simp at hacts
  | data hn _ hm ih =>
    cases args with
    | nil => simp at hacts
    | cons a as =>
      simp only [List.map_cons, List.cons.injEq] at hacts
      rw [List.flatMap_cons, List.length_append, ih hacts.2]
      cases a <;> simp_all [Arg.action, Arg.bits]
      omega
  | index hn _ hm ih =>
    cases args with
    | nil => simp at hacts
    | cons a as =>
      simp only [List.map_cons, List.cons.injEq] at hacts
      rw [List.flatMap_cons, List.length_append, ih hacts.2]
      cases a <;> simp_all [Arg.action, Arg.bits]

theorem optIter_op (e : Endian) {p : ODecomp} (hp : optView.Inv p) {op : Op} {R : List Bool} {o : List Byte}
    (hval : op.Valid) (hsh : op.isShort = false) (hR : p.rest = op.bits ++ R) (hst : OpStep p.outp op o) :
    (o.length ≤ p.buf.length ∧ ∃ p', optIter e p = .ok false p' ∧ optView.Inv p' ∧
      p'.buf.length = p.buf.length ∧ p'.outp = o ∧ p'.rest = R) ∨
    (p.buf.length < o.length ∧ ∃ p', optIter e p = .err .ENOSPC p') := by
  obtain ⟨hp, herr, h8⟩ := hp
  have hlo := hp.length_outp
  obtain ⟨hc, hne⟩ := opCode_lt hval
  rw [op_bits_eq, List.append_assoc] at hR
  obtain ⟨v, p1, h1, hi1, hs1, hv, hr1, he1⟩ := readBits_of e (n := 5) (by omega) (by omega) hp hc hR
  have herr1 := he1.trans herr
  have hout1 := hs1.out
  have hol1 := hi1.olen
  have hb1 : p1.buf.length = p.buf.length := by rw [hs1.buf]
  have hcommon : ∀ c, opCode op = c → optIter e p = (if (c < 0x1a ∨ c = 0x1C) ∧ p1.out + 8 > p1.olen then
      M.fail .ENOSPC else do
        odoOp e c
        checkError
        pure false) p1 := by
    rintro c rfl
    unfold optIter
    rw [M.bind_ok h1, M.bind_ok (checkError_none herr1), M.get_bind_apply, hv, if_neg hne]
  rw [← hs1.outp] at hst hlo
  cases hst with
  | @template code args _ hrun =>
    have hcode : code < 26 := by
      have := hval.1
      by_contra hge
      rw [List.getElem?_eq_none (by simp [templates]; omega)] at this
      cases this
    obtain ⟨acts, n, steps, ht, ho, hrow, hsz, hn1, hn⟩ := optSwitch_ok code hcode
    have hm : args.map Arg.action = acts := by
      have := hval.1
      rw [ht] at this
      exact (Option.some.inj this).symm
    have hol := ArgsRun.length_eq hrun
    rw [hm, hsz] at hol
    rw [hcommon code rfl]
    by_cases hfull : p1.out + 8 > p1.olen
    · rw [if_pos ⟨.inl hcode, hfull⟩]
      exact .inr ⟨by omega, _, rfl⟩
    · rw [if_neg (by omega)]
      unfold odoOp
      rw [ho]
      simp only [opTail] at hr1
      obtain ⟨k, hk, hkb⟩ := flatMap_bits_val (hrow.bits_length hm)
      rw [hkb] at hr1
      obtain ⟨r, p2, h2, hi2, hs2, hrk, hr2, he2⟩ := readBits_of e hn1 hn hi1 hk hr1
      simp only
      rw [M.bind_assoc', M.bind_ok h2]
      have hb2 : p2.buf.length = p1.buf.length := by rw [hs2.buf]
      have hout2 := hs2.out
      obtain ⟨p3, h3, hi3, hr3, hl3, he3, ho3⟩ := optSteps_of e r hrow hi2 (by omega) (he2.trans herr1)
        hm hval.2 (by rw [hrk, hkb]) (by rw [hs2.outp]; exact hrun)
      rw [M.bind_ok h3, M.bind_ok (checkError_none he3)]
      have hlo3 := hi3.length_outp
      rw [ho3] at hlo3
      exact .inl ⟨by omega, p3, rfl, ⟨hi3, he3, by omega⟩, by omega, ho3, by rw [hr3, hr2]⟩
  | @rep n h8' =>
    rw [hcommon 0x1b rfl, if_neg (by omega)]
    unfold odoOp
    rw [optSwitch_none (by omega)]
    simp only [if_true]
    simp only [opTail] at hr1
    obtain ⟨r, p2, h2, hi2, hs2, hrk, hr2, he2⟩ := readBits_of e (n := 6) (by omega) (by omega) hi1
      (show n < 2 ^ 6 from hval) hr1
    have herr2 := he2.trans herr1
    rw [M.bind_assoc', M.bind_ok h2, M.bind_assoc', M.bind_ok (checkError_none herr2), M.bind_assoc',
      M.get_bind_apply, hrk]
    have hout2 := hs2.out
    have hol2 := hi2.olen
    have hb2 : p2.buf.length = p1.buf.length := by rw [hs2.buf]
    have hlen : (p1.outp ++ (List.replicate (n + 1) (p1.outp.drop (p1.outp.length - 8))).flatten).length
        = p1.out + (n + 1) * 8 := by
      simp [hlo]; rw [show p.out - (p.out - 8) = 8 by omega, hout1]
    rw [if_neg (by omega)]
    by_cases hfull : p2.out + (n + 1) * 8 > p2.olen
    · rw [if_pos hfull]
      exact .inr ⟨by omega, _, rfl⟩
    · rw [if_neg hfull]
      obtain ⟨p3, h3, hi3, hl3, hr3, hout3, he3, ho3⟩ := odoRepeat_ok (n + 1) hi2 (by omega) (by omega)
      rw [M.bind_ok h3, M.bind_ok (checkError_none (he3.trans herr2))]
      exact .inl ⟨by omega, p3, rfl, ⟨hi3, he3.trans herr2, by omega⟩, by omega,
        by rw [ho3, hs2.outp], by rw [hr3, hr2]⟩
  | zeros =>
    rw [hcommon 0x1c rfl]
    have hol : (p1.outp ++ List.replicate 8 0#8).length = p1.out + 8 := by simp [hlo, hout1]
    by_cases hfull : p1.out + 8 > p1.olen
    · rw [if_pos ⟨.inr rfl, hfull⟩]
      exact .inr ⟨by omega, _, rfl⟩
    · rw [if_neg (by omega)]
      unfold odoOp
      rw [optSwitch_none (by omega)]
      simp only [if_true]
      rw [if_neg (by decide)]
      obtain ⟨p2, h2, hi2, ho2, hr2, hl2, hout2, he2⟩ := oemit_ok hi1 (bs := List.replicate 8 0#8)
        (by simp; omega)
      rw [List.length_replicate] at hout2
      rw [M.bind_ok h2, M.bind_ok (checkError_none (he2.trans herr1))]
      exact .inl ⟨by omega, p2, rfl, ⟨hi2, he2.trans herr1, by omega⟩, by omega, ho2,
        by rw [hr2, hr1]; rfl⟩
  | short => simp [Op.isShort] at hsh

theorem optIter_ok (e : Endian) : optView.Ok (optIter e) where
  fits p hp := by
    show p.outp.length ≤ p.buf.length
    rw [hp.1.length_outp]; exact hp.1.out
  sound p hp := optIter_sound e hp
  fin p hp R hR := by
    obtain ⟨hp, herr, h8⟩ := hp
    obtain ⟨v, p1, h1, hi1, hs1, hv, hr1, he1⟩ := readBits_of e (n := 5) (by omega) (by omega) hp
      (show 0x1e < 2 ^ 5 by omega) hR
    refine ⟨p1, ?_, ⟨hi1, he1.trans herr, by rw [hs1.out]; exact h8⟩, hs1.buf, hs1.outp, hr1⟩
    unfold optIter
    rw [M.bind_ok h1, M.bind_ok (checkError_none (he1.trans herr)), M.get_bind_apply, hv,
      if_neg (by omega), if_pos rfl]
    rfl
  op p hp op R o hv hs hR hst := optIter_op e hp hv hs hR hst

/-! ## The entry point -/

theorem optInit_inv (inp buf : List Byte) : optView.Inv (optInit inp buf) :=
  ⟨⟨rfl, rfl, Nat.zero_le _, ⟨0, Win.zero⟩, Nat.zero_le _⟩, rfl, rfl⟩

theorem optInit_rest (inp buf : List Byte) :
    (optInit inp buf).rest = bytesBits (ODecomp.words inp) := rfl

theorem words_le (inp : List Byte) : (bytesBits (ODecomp.words inp)).length ≤ 8 * inp.length := by
  rw [length_bytesBits, length_words]; omega

/-- The part after the loop. -/
theorem optTail (e : Endian) (ain aout fuel : Nat) (hal : ain % 8 = 0 ∧ aout % 8 = 0)
    {inp buf : List Byte} {p1 : ODecomp}
    (h : M.doWhile (optIter e) fuel (optInit inp buf) = .ok () p1) (hi : optView.Inv p1) :
    optsw842DecompressF fuel e ain aout inp buf =
      match (readBits e 32 >>= fun c => checkError >>= fun _ => pure c) p1 with
      | .ok c p2 => if c ≠ (crc p1.outp).setWidth 64 then .ret (some .EINVAL) 0 p2.buf
          else .ret none p1.outp.length p2.buf
      | .err er p2 => .ret (some er) 0 p2.buf
      | .ub => .ub
      | .timeout => .timeout := by
  unfold optsw842DecompressF optBody
  rw [if_neg (by omega), M.bind_ok h]
  obtain ⟨v, p2, h2, hi2, hs2, hcase⟩ := readBits_spec e (n := 32) (by omega) (by omega) hi.1
  rw [M.bind_ok h2, M.bind_ok h2]
  rcases hcase with ⟨hv, hr, he⟩ | ⟨_, hne, _⟩
  · have herr := he.trans hi.2.1
    rw [M.bind_ok (checkError_none herr), M.bind_ok (checkError_none herr), M.get_bind_apply]
    rw [M.access_bind_some (g := fun p : ODecomp => crc32be e aout 0#32 p.buf p.out)
      (a := crc p1.outp) (by rw [crc32be_eq e aout p2.buf _ hi2.out, ← hs2.outp]; rfl)]
    have : p2.out = p1.outp.length := by rw [hs2.out, hi.1.length_outp]
    by_cases hc : v ≠ (crc p1.outp).setWidth 64
    · simp only [if_pos hc, M.fail_apply, M.pure_apply]
    · simp only [if_neg hc, M.pure_apply, this]
  · obtain ⟨er, hc⟩ := checkError_ne hne
    rw [M.bind_err hc, M.bind_err hc]

/-- Everything `optsw842_decompress` can do on aligned buffers. -/
inductive OptRes (inp buf : List Byte) : Call → Prop
  | ok {data b : List Byte} : HwDecodes (ODecomp.words inp) data → data.length ≤ buf.length →
      b.length = buf.length → b.take data.length = data →
      OptRes inp buf (.ret none data.length b)
  | err {er : Errno} {b : List Byte} : b.length = buf.length → OptRes inp buf (.ret (some er) 0 b)

theorem optDecompF_res (e : Endian) (ain aout fuel : Nat) (hal : ain % 8 = 0 ∧ aout % 8 = 0)
    (inp buf : List Byte) (hf : 8 * inp.length < 5 * fuel) :
    OptRes inp buf (optsw842DecompressF fuel e ain aout inp buf) := by
  have hw := words_le inp
  have hres := (optIter_ok e).loop_res fuel (optInit_inv inp buf)
    (by show (optInit inp buf).rest.length < _; rw [optInit_rest]; omega)
  generalize hx : M.doWhile (optIter e) fuel (optInit inp buf) = x at hres
  cases hres with
  | @ok p1 ops hi hl hvs hsh hrest hrun =>
    rw [optTail e ain aout fuel hal hx hi]
    have hl : p1.buf.length = buf.length := hl
    have hrest : bytesBits (ODecomp.words inp) = ops.flatMap Op.bits ++ (bitsOf 5 0x1e ++ p1.rest) := hrest
    have hrun : Run [] ops p1.outp := hrun
    obtain ⟨v, p2, h2, hi2, hs2, hcase⟩ := readBits_spec e (n := 32) (by omega) (by omega) hi.1
    rw [M.bind_ok h2]
    have hb2 : p2.buf.length = buf.length := by rw [hs2.buf, hl]
    rcases hcase with ⟨hv, hr, he⟩ | ⟨_, hne, _⟩
    · rw [M.bind_ok (checkError_none (he.trans hi.2.1))]
      simp only [M.pure_apply]
      by_cases hc : v ≠ (crc p1.outp).setWidth 64
      · rw [if_pos hc]; exact .err hb2
      rw [if_neg hc]
      have hv : v.toNat = (crc p1.outp).toNat := by
        rw [not_not] at hc; rw [hc, setWidth_crc]
      have hle : p1.outp.length ≤ buf.length := by
        rw [hi.1.length_outp, ← hl]; exact hi.1.out
      refine .ok ⟨ops, p2.rest, ⟨hvs, hrun⟩, hsh, ?_⟩ hle hb2 ?_
      · rw [hrest, hr, hv, trailer]; simp only [List.append_assoc]
      · rw [hi.1.length_outp, hs2.buf]; rfl
    · obtain ⟨er, hc⟩ := checkError_ne hne
      rw [M.bind_err hc]; exact .err hb2
  | err hl =>
    unfold optsw842DecompressF optBody
    rw [if_neg (by omega), M.bind_err hx]
    exact .err hl

/-- A complete op sequence followed by the end marker and 32 more bits. -/
theorem optDecompF_of (e : Endian) (ain aout fuel : Nat) (hal : ain % 8 = 0 ∧ aout % 8 = 0)
    (inp buf : List Byte) (hf : 8 * inp.length < 5 * fuel)
    {ops : List Op} {data : List Byte} (hexp : Expands ops data) (hsh : ∀ op ∈ ops, op.isShort = false)
    {c : BitVec 32} {R : List Bool}
    (hin : bytesBits (ODecomp.words inp) =
      ops.flatMap Op.bits ++ (bitsOf 5 0x1e ++ (bitsOf 32 c.toNat ++ R))) :
    ∃ b, b.length = buf.length ∧ (data.length ≤ buf.length → b.take data.length = data) ∧
      optsw842DecompressF fuel e ain aout inp buf =
        if buf.length < data.length then .ret (some .ENOSPC) 0 b
        else if c ≠ crc data then .ret (some .EINVAL) 0 b
        else .ret none data.length b := by
  have hw := words_le inp
  have hres := optDecompF_res e ain aout fuel hal inp buf hf
  have hd := (optIter_ok e).loop_of (fuel := fuel) ops hexp.1 hsh (optInit_inv inp buf)
    (R := bitsOf 32 c.toNat ++ R)
    (by show (optInit inp buf).rest = _; rw [optInit_rest, hin])
    (by show (optInit inp buf).rest.length < _; rw [optInit_rest]; omega)
    (o := data) hexp.2
  rcases hd with ⟨hle, p1, h1, hi1, hl1, ho1, hr1⟩ | ⟨hlt, p1, h1⟩
  · have hl1 : p1.buf.length = buf.length := hl1
    have hle : data.length ≤ buf.length := hle
    have ho1 : p1.outp = data := ho1
    rw [optTail e ain aout fuel hal h1 hi1]
    obtain ⟨v, p2, hn1, hi2, hs2, hvk, hr2, he2⟩ :=
      readBits_of e (n := 32) (by omega) (by omega) hi1.1 c.isLt hr1
    rw [M.bind_ok hn1, M.bind_ok (checkError_none (he2.trans hi1.2.1))]
    simp only [M.pure_apply]
    have hvc : v = c.setWidth 64 := BitVec.eq_of_toNat_eq (by rw [hvk, setWidth_crc])
    have hiff : v ≠ (crc p1.outp).setWidth 64 ↔ c ≠ crc data := by
      rw [ho1, hvc, not_iff_not]
      constructor
      · intro h
        apply BitVec.eq_of_toNat_eq
        rw [← setWidth_crc c, h, setWidth_crc]
      · rintro rfl; rfl
    refine ⟨p2.buf, by rw [hs2.buf, hl1], fun _ => ?_, ?_⟩
    · rw [hs2.buf, ← ho1, hi1.1.length_outp]; rfl
    · rw [if_neg (show ¬ buf.length < data.length by omega)]
      rw [ho1] at hiff ⊢
      by_cases hc : c ≠ crc data
      · rw [if_pos hc, if_pos (hiff.2 hc)]
      · rw [if_neg hc, if_neg (fun h => hc (hiff.1 h))]
  · have hlt : buf.length < data.length := hlt
    have : optsw842DecompressF fuel e ain aout inp buf = .ret (some .ENOSPC) 0 p1.buf := by
      unfold optsw842DecompressF optBody
      rw [if_neg (by omega), M.bind_err h1]
    rw [this] at hres ⊢
    cases hres with
    | err hl => exact ⟨p1.buf, hl, fun h => by omega, by rw [if_pos hlt]⟩

theorem optDecompF_fuel (e : Endian) (ain aout : Nat) (inp buf : List Byte) {f1 f2 : Nat}
    (h1 : 8 * inp.length < 5 * f1) (h12 : f1 ≤ f2) :
    optsw842DecompressF f2 e ain aout inp buf = optsw842DecompressF f1 e ain aout inp buf := by
  by_cases hal : ain % 8 ≠ 0 ∨ aout % 8 ≠ 0
  · unfold optsw842DecompressF
    rw [if_pos hal, if_pos hal, swDecompF_fuel e aout inp buf h1 h12]
  have hw := words_le inp
  induction f2, h12 using Nat.le_induction with
  | base => rfl
  | succ f2 h ih =>
    rw [← ih]
    have hres := (optIter_ok e).loop_res f2 (optInit_inv inp buf)
      (by show (optInit inp buf).rest.length < _; rw [optInit_rest]; omega)
    have : M.doWhile (optIter e) (f2 + 1) (optInit inp buf) = M.doWhile (optIter e) f2 (optInit inp buf) := by
      apply doWhile_mono
      intro h; rw [h] at hres; cases hres
    unfold optsw842DecompressF optBody
    rw [if_neg hal, if_neg hal, M.bind_def, M.bind_def, this]

end Lib842
