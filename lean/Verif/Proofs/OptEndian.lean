import Verif.Proofs.SwEndian
import Verif.Proofs.OptComp
import Verif.Proofs.OptDecomp
/-!
# The optimized codec does not depend on the byte order of the host
-/

namespace Lib842
open Spec

/-! ## Decompressor -/

theorem readWord_big (e : Endian) : readWord e = readWord .big := by
  unfold readWord
  congr 1
  funext p
  split
  · rfl
  · have h : ∀ {β : Type} (g : BitVec 64 → M ODecomp β),
        (M.access (fun s : ODecomp => load64 e s.inp (8 * s.word)) >>= fun a => g (swapBe64 e a)) =
        (M.access (fun s : ODecomp => load64 .big s.inp (8 * s.word)) >>= fun a => g (swapBe64 .big a)) := by
      intro β g
      rw [access_map]
      simp only [load64_swap]
      rfl
    exact h fun v => (M.modify fun p : ODecomp => { p with word := p.word + 1 }) >>= fun _ => pure v

theorem readBits_big (e : Endian) (n : Nat) : readBits e n = readBits .big n := by
  unfold readBits
  simp only [readWord_big e]

theorem odoData_big (e : Endian) (n : Nat) (d : BitVec 64) : odoData e n d = odoData .big n d := by
  unfold odoData
  simp only [wordBytes16_swap, wordBytes32_swap, wordBytes64_swap]

theorem optSteps_big (e : Endian) (rep : BitVec 64) (l : List OptStep) : optSteps e rep l = optSteps .big rep l := by
  induction l with
  | nil => rfl
  | cons s l ih =>
    rw [optSteps, optSteps, ih]
    cases s
    · simp only [optStep, odoData_big e]
    · rfl

theorem odoOp_big (e : Endian) (op : Nat) : odoOp e op = odoOp .big op := by
  unfold odoOp
  simp only [readBits_big e, optSteps_big e]

theorem optIter_big (e : Endian) : optIter e = optIter .big := by
  unfold optIter
  simp only [readBits_big e, odoOp_big e]

theorem optsw842Decompress_big (e : Endian) (ain aout : Nat) (inp buf : List Byte) :
    optsw842Decompress e ain aout inp buf = optsw842Decompress .big ain aout inp buf := by
  by_cases hal : ain % 8 ≠ 0 ∨ aout % 8 ≠ 0
  · unfold optsw842Decompress optsw842DecompressF
    rw [if_pos hal, if_pos hal]
    exact sw842Decompress_big e aout aout inp buf
  · have hal' : ain % 8 = 0 ∧ aout % 8 = 0 := by omega
    have hw := words_le inp
    have hres := (optIter_ok .big).loop_res (8 * inp.length + 1) (optInit_inv inp buf)
      (by show (optInit inp buf).rest.length < _; rw [optInit_rest]; omega)
    have hb := congrFun (congrArg (fun f => M.doWhile f (8 * inp.length + 1)) (optIter_big e)) (optInit inp buf)
    generalize hx : M.doWhile (optIter .big) (8 * inp.length + 1) (optInit inp buf) = x at hres hb
    unfold optsw842Decompress
    cases hres with
    | ok hi hl hvs hsh hrest hrun =>
      rw [optTail e ain aout _ hal' hb hi, optTail .big ain aout _ hal' hx hi, readBits_big e]
    | err hl =>
      unfold optsw842DecompressF optBody
      rw [if_neg hal, if_neg hal, M.bind_err hx, M.bind_err hb]

/-! ## Compressor -/

theorem streamWriteWord_big (e : Endian) (v : BitVec 64) : streamWriteWord e v = streamWriteWord .big v := by
  unfold streamWriteWord store64
  simp only [wordBytes64_swap]

theorem streamWriteBits_big (e : Endian) (v : BitVec 64) (n : Nat) :
    streamWriteBits e v n = streamWriteBits .big v n := by
  unfold streamWriteBits
  simp only [streamWriteWord_big e]

theorem streamPadLoop_big (e : Endian) (f : Nat) : streamPadLoop e f = streamPadLoop .big f := by
  induction f with
  | zero => rfl
  | succ f ih => rw [streamPadLoop, streamPadLoop, ih]; simp only [streamWriteWord_big e]

theorem streamFlush_big (e : Endian) : streamFlush e = streamFlush .big := by
  unfold streamFlush streamPad
  simp only [streamPadLoop_big e]

theorem orShifted_big (e : Endian) (code : Nat) (c : OCore) (l : List (OptSrc × Nat)) :
    orShifted e code c l = orShifted .big code c l := by
  induction l with
  | nil => rfl
  | cons a l ih =>
    obtain ⟨src, sh⟩ := a
    have : src.eval e code c = src.eval .big code c := by
      cases src with
      | code => rfl
      | dai i => rfl
      | mid =>
        simp only [OptSrc.eval]
        rw [← load32_swap e]
        simp [Option.map_map, Function.comp_def, swapBe32]
    rw [orShifted, orShifted, ih, this]

theorem oaddRepeat_big (e : Endian) (r : Nat) : oaddRepeat e r = oaddRepeat .big r := by
  unfold oaddRepeat; rw [streamWriteBits_big e]

theorem oprocessNext_big (e : Endian) : oprocessNext e = oprocessNext .big := by
  unfold oprocessNext oaddTemplate
  simp only [streamWriteBits_big e, orShifted_big e]

theorem ogetNextData_big (e : Endian) : ogetNextData e = ogetNextData .big := by
  funext c
  unfold ogetNextData
  simp only [← load16_swap e, ← load32_swap e, ← load64_swap e]
  cases load16 e c.inp c.pos <;> simp only [Option.map_none, Option.map_some, Option.bind_eq_bind, Option.bind_none, Option.bind_some]
  cases load16 e c.inp (c.pos + 2) <;> simp only [Option.map_none, Option.map_some, Option.bind_none, Option.bind_some]
  cases load16 e c.inp (c.pos + 4) <;> simp only [Option.map_none, Option.map_some, Option.bind_none, Option.bind_some]
  cases load16 e c.inp (c.pos + 6) <;> simp only [Option.map_none, Option.map_some, Option.bind_none, Option.bind_some]
  cases load32 e c.inp c.pos <;> simp only [Option.map_none, Option.map_some, Option.bind_none, Option.bind_some]
  cases load32 e c.inp (c.pos + 4) <;> simp only [Option.map_none, Option.map_some, Option.bind_none, Option.bind_some]
  cases load64 e c.inp c.pos <;> simp only [Option.map_none, Option.map_some, Option.bind_none, Option.bind_some]
  rfl

theorem ocompStep_big (e : Endian) (next last : BitVec 64) (rc : Nat) :
    ocompStep (.std e) e next last rc = ocompStep (.std .big) .big (swapBe64 e next) (swapBe64 e last) rc := by
  have h1 : (swapBe64 e next = swapBe64 e last) = (next = last) :=
    propext ⟨swapBe64_inj, fun h => by rw [h]⟩
  have h2 : (swapBe64 e next = 0#64) = (next = 0#64) :=
    propext ⟨fun h => swapBe64_inj (e := e) (by rw [h, swapBe64_zero]), fun h => by rw [h, swapBe64_zero]⟩
  unfold ocompStep OConf.std
  simp only [h1, h2, oaddRepeat_big e, streamWriteBits_big e, oprocessNext_big e]

theorem access64O {β : Type} (e : Endian) (m : List Byte) (p : Nat) (g : BitVec 64 → M OComp β) :
    (M.access (fun _ : OComp => load64 e m p) >>= fun a => g (swapBe64 e a)) =
      (M.access (fun _ : OComp => load64 .big m p) >>= g) := by
  rw [access_map]
  simp only [load64_swap]

theorem access64O' {β : Type} (e : Endian) (m : List Byte) (p : Nat) {F G : BitVec 64 → M OComp β}
    (h : ∀ a, F a = G (swapBe64 e a)) :
    (M.access (fun _ : OComp => load64 e m p) >>= F) = (M.access (fun _ : OComp => load64 .big m p) >>= G) := by
  rw [funext h]
  exact access64O e m p G

theorem ocompLoop_big (e : Endian) (fuel : Nat) (last : BitVec 64) (rc : Nat) :
    ocompLoop (.std e) e fuel last rc = ocompLoop (.std .big) .big fuel (swapBe64 e last) rc := by
  induction fuel generalizing last rc with
  | zero => rfl
  | succ fuel ih =>
    rw [ocompLoop, ocompLoop]
    congr 1
    funext p
    split
    · simp only [ih, ocompStep_big e]
      simp only [OConf.std, ogetNextData_big e]
      exact access64O e p.core.inp p.core.pos (fun next =>
        liftC (ogetNextData .big) >>= fun _ => ocompStep (.std .big) .big next (swapBe64 e last) rc >>= fun rc =>
          liftC oupdateHashtables >>= fun _ =>
          (liftC fun c => some { c with pos := c.pos + 8, ilen := c.ilen - 8 }) >>= fun _ =>
          ocompLoop (.std .big) .big fuel next rc)
    · rfl

theorem ocompBody_big (e : Endian) (addr addr' fuel : Nat) (inp : List Byte) :
    ocompBody (.std e) e addr fuel inp = ocompBody (.std .big) .big addr' fuel inp := by
  unfold ocompBody
  congr 1
  funext p
  simp only [ocompLoop_big e, swapBe64_not, oaddRepeat_big e, streamWriteBits_big e, streamFlush_big e,
    crc32be_eq _ _ inp _ (Nat.le_refl _)]
  exact access64O' e p.core.inp p.core.pos fun a => rfl

theorem optsw842Compress_big (e : Endian) (ain aout : Nat) (j : OptJunk) (jsw : CompJunk) (inp buf : List Byte) :
    optsw842Compress e ain aout j jsw inp buf = optsw842Compress .big ain aout j jsw inp buf := by
  unfold optsw842Compress optsw842CompressF
  split
  · rfl
  split
  · exact sw842Compress_big e ain ain jsw inp buf
  · rw [ocompBody_big e ain ain]

end Lib842
