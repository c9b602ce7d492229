import Verif.Model.NonStrict
import Verif.Proofs.Cuda
import Verif.Proofs.NewWords
import Verif.Proofs.OptCall
import Verif.SpecDirect
/-!
# The code without `LIB842_CUDA_STRICT`
-/

namespace Lib842
open Spec

/-! ## The compressor -/

noncomputable def nrefLoop (x : List Byte) : (k : Nat) → OTab → (pos : Nat) → List Op
  | 0, _, _ => []
  | k + 1, T, pos => T.blockOp x pos :: nrefLoop x k ((T.rehash x pos).next pos) (pos + 8)

/-- The ops the compressor emits for `x`. -/
noncomputable def nrefOps (x : List Byte) : List Op := nrefLoop x (x.length / 8) .init 0

noncomputable def nstreamBits (x : List Byte) : List Bool := (nrefOps x).flatMap Op.bits ++ trailer x

theorem nrefLoop_run (x : List Byte) (k : Nat) {T : OTab} {pos : Nat} (h8 : pos % 8 = 0) (hpos : pos + 8 * k ≤ x.length) :
    RunP OBlockGood (x.take pos) (nrefLoop x k T pos) (x.take (pos + 8 * k)) := by
  induction k generalizing T pos with
  | zero => exact .nil
  | succ k ih =>
    rw [nrefLoop, show pos + 8 * (k + 1) = (pos + 8) + 8 * k by omega]
    obtain ⟨hv, hns, hst, -⟩ := T.blockOp_ok (x := x) h8 (by omega)
    exact .cons ⟨hv, hns, by simp; omega⟩ hst (ih (by omega) (by omega))

theorem nrefOps_run {x : List Byte} (h : x.length % 8 = 0) : RunP OBlockGood [] (nrefOps x) x := by
  have := nrefLoop_run x (x.length / 8) (T := .init) (pos := 0) rfl (by omega)
  rwa [List.take_zero, Nat.zero_add, List.take_of_length_le (by omega)] at this

theorem nrefLoop_bits (x : List Byte) (k : Nat) {T : OTab} {pos : Nat} (h8 : pos % 8 = 0) (hpos : pos + 8 * k ≤ x.length) :
    ((nrefLoop x k T pos).flatMap Op.bits).length ≤ 69 * k := by
  induction k generalizing T pos with
  | zero => simp [nrefLoop]
  | succ k ih =>
    rw [nrefLoop, List.flatMap_cons, List.length_append]
    have h1 := (T.blockOp_ok (x := x) h8 (by omega)).2.2.2
    have h2 := ih (T := (T.rehash x pos).next pos) (pos := pos + 8) (by omega) (by omega)
    omega

theorem nstreamBits_length (x : List Byte) : (nstreamBits x).length ≤ 69 * (x.length / 8) + 37 := by
  have := nrefLoop_bits x (x.length / 8) (T := .init) (pos := 0) rfl (by omega)
  unfold nstreamBits nrefOps
  simp only [List.length_append, trailer, length_bitsOf]
  omega

theorem nstreamBits_decodes {x inp : List Byte} {R : List Bool} (h8 : x.length % 8 = 0)
    (h : bytesBits inp = nstreamBits x ++ R) : HwDecodes inp x := by
  have hr := nrefOps_run h8
  refine ⟨nrefOps x, R, ⟨fun op hop => ?_, hr.run⟩, fun op hop => ?_, h⟩
  · obtain ⟨o, ho⟩ := hr.forall op hop; exact ho.1
  · obtain ⟨o, ho⟩ := hr.forall op hop; exact ho.2.1

theorem ncompLoop_ce (e : Endian) {cf : OConf} (hcf : cf.Ok e) (x : List Byte) (m k : Nat) {pos : Nat} {T : OTab}
    {c : OCore} (h8 : pos % 8 = 0) (hr : ORep c T x pos) (hend : x.length = pos + 8 * k) :
    ∃ c', CE e (ncompLoop cf e (m + k + 1)) c () c' ((nrefLoop x k T pos).flatMap Op.bits) := by
  induction k generalizing pos T c with
  | zero =>
    refine ⟨c, ?_⟩
    unfold ncompLoop
    refine CE.of_ok fun s => ?_
    rw [M.get_bind_apply, if_neg (by simp only [hr.ilen]; omega)]
    rfl
  | succ k ih =>
    obtain ⟨v, hv, -⟩ := load64_key e (x := x) (o := pos) (by omega)
    obtain ⟨c1, hg1, hr1, hl1, c2, hem2, hr2, hl2⟩ := hcf.step h8 (pos := pos) (by omega) hr
    obtain ⟨c3, hg3, hr3⟩ := oupdateHashtables_ok h8 hr2 hl2
    obtain ⟨c5, hem5⟩ := ih (by omega) hr3 (by omega)
    refine ⟨c5, ?_⟩
    rw [show m + (k + 1) + 1 = (m + k + 1) + 1 by omega, ncompLoop]
    refine CE.get_bind' (g := fun c => if c.ilen > 7 then do
        let _next ← M.access fun _ => load64 e c.inp c.pos
        liftC cf.getNextData
        cf.processNext
        liftC oupdateHashtables
        liftC fun c => some { c with pos := c.pos + 8, ilen := c.ilen - 8 }
        ncompLoop cf e (m + k + 1)
      else Pure.pure ()) (fun _ => rfl) ?_
    rw [if_pos (by rw [hr.ilen]; omega)]
    refine CE.access_bind (a := v) (fun s => by rw [hr.inp, hr.pos]; exact hv) ?_
    refine CE.liftC_bind hg1 ?_
    rw [nrefLoop, List.flatMap_cons]
    refine hem2.bind ?_
    refine CE.liftC_bind hg3 ?_
    exact CE.liftC_bind rfl hem5

/-- Everything up to the flush. -/
def ncompPre (cf : OConf) (e : Endian) (addr fuel : Nat) (inp : List Byte) : M OComp Unit := do
  let p ← M.get
  let _first ← M.access fun _ => load64 e p.core.inp p.core.pos
  ncompLoop cf e fuel
  liftS (streamWriteBits e 0x1E#64 5)
  let crc ← M.access fun _ => crc32be e addr 0#32 inp inp.length
  liftS (streamWriteBits e (crc.setWidth 64) 32)

theorem ncompBody_eq (cf : OConf) (e : Endian) (addr fuel : Nat) (inp : List Byte) :
    ncompBody cf e addr fuel inp = (ncompPre cf e addr fuel inp >>= fun _ => do
      liftS (streamFlush e)
      let p ← M.get
      pure (8 * p.s.ptr)) := by
  unfold ncompBody ncompPre
  simp only [M.bind_assoc']

theorem trailer_ce (e : Endian) (addr : Nat) (x : List Byte) (c : OCore) :
    CE e (liftS (streamWriteBits e 0x1E#64 5) >>= fun _ =>
      M.access (fun _ => crc32be e addr 0#32 x x.length) >>= fun crc =>
      liftS (streamWriteBits e (crc.setWidth 64) 32)) c () c (trailer x) := by
  have hcrc := crc32be_eq e addr x x.length (Nat.le_refl _)
  rw [List.take_length] at hcrc
  have ht : ((crc x).setWidth 64).toNat = (crc x).toNat := by
    rw [BitVec.toNat_setWidth]
    have := (crc x).isLt
    omega
  have h2 : CE e (liftS (streamWriteBits e ((crc x).setWidth 64) 32)) c () c (bitsOf 32 (crc x).toNat) := by
    rw [← ht]
    exact CE.writeBits (by omega) (by omega) (by rw [ht]; exact (crc x).isLt) c
  exact (CE.writeBits (v := 0x1E#64) (n := 5) (by omega) (by omega) (by decide) c).seq
    (CE.access_bind (a := crc x) (fun _ => hcrc) h2) rfl

theorem ncompPre_ce (e : Endian) {cf : OConf} (hcf : cf.Ok e) (addr m : Nat) {x : List Byte} (h8 : x.length % 8 = 0) (hne : x ≠ [])
    {c : OCore} (hr : ORep c .init x 0) :
    ∃ c', CE e (ncompPre cf e addr (m + x.length / 8 + 1) x) c () c' (nstreamBits x) := by
  have hpos : 0 < x.length := List.length_pos_iff.2 hne
  obtain ⟨v, hv, -⟩ := load64_key e (x := x) (o := 0) (by omega)
  obtain ⟨c1, hem⟩ := ncompLoop_ce e hcf x m (x.length / 8) rfl hr (by omega)
  refine ⟨c1, ?_⟩
  unfold ncompPre nstreamBits nrefOps
  refine CE.get_bind' (g := fun c => do
      let _first ← M.access fun _ => load64 e c.inp c.pos
      ncompLoop cf e (m + x.length / 8 + 1)
      liftS (streamWriteBits e 0x1E#64 5)
      let crc ← M.access fun _ => crc32be e addr 0#32 x x.length
      liftS (streamWriteBits e (crc.setWidth 64) 32)) (fun _ => rfl) ?_
  refine CE.access_bind (a := v) (fun s => by rw [hr.inp, hr.pos]; exact hv) ?_
  exact hem.bind (trailer_ce e addr x c1)

/-- Whatever writes the bits `B` and then flushes. -/
theorem flush_res (e : Endian) {X : M OComp Unit} {c c' : OCore} {B : List Bool} (h : CE e X c () c' B) (buf : List Byte) :
    ∃ b, b.length = buf.length ∧
      if paddedSize B.length ≤ buf.length then
        ocompRet ((X >>= fun _ => do
            liftS (streamFlush e)
            let p ← M.get
            pure (8 * p.s.ptr)) ⟨c, streamOpen buf⟩) = .ret none (paddedSize B.length) b ∧
          bytesBits (b.take (paddedSize B.length)) = B ++ List.replicate (8 * paddedSize B.length - B.length) false ∧
          b.drop (paddedSize B.length) = buf.drop (paddedSize B.length)
      else ocompRet ((X >>= fun _ => do
            liftS (streamFlush e)
            let p ← M.get
            pure (8 * p.s.ptr)) ⟨c, streamOpen buf⟩) = .ret (some .ENOSPC) 0 b := by
  obtain ⟨ws, hok, hws, hrun⟩ := h
  have hrun := hrun (streamOpen buf)
  have hs0 := streamOpen_ok buf
  have hw0 := streamOpen_written buf
  have hend : (streamOpen buf).endw = buf.length / 8 := rfl
  have hpad : paddedSize B.length ≤ buf.length ↔ (B.length + 63) / 64 ≤ buf.length / 8 := by
    unfold paddedSize; omega
  by_cases hfit1 : B.length / 64 ≤ buf.length / 8
  · obtain ⟨s1, hwr, hs1, he1, hw1⟩ := writeAll_ok (e := e) hok hs0 (by rw [hw0, hws, hend]; simpa using hfit1)
    rw [hw0, List.nil_append, hws] at hw1
    have hx := hrun.1 s1 hwr
    rw [M.bind_ok hx]
    by_cases hfit : (B.length + 63) / 64 ≤ buf.length / 8
    · obtain ⟨s2, hfl, hl2, hp2, htail, hbits⟩ := streamFlush_ok (e := e) hs1 (by rw [hw1, he1, hend]; exact hfit)
      rw [hw1] at hbits hp2
      have hps : paddedSize B.length = 8 * s2.ptr := by rw [hp2]; rfl
      have hL : liftS (streamFlush e) (⟨c', s1⟩ : OComp) = .ok () ⟨c', s2⟩ := by
        unfold liftS; simp only [hfl]
      refine ⟨s2.buf, hl2, ?_⟩
      rw [if_pos (hpad.2 hfit), hps]
      refine ⟨?_, ?_, htail⟩
      · rw [M.bind_ok hL]; rfl
      · rw [hbits]; congr 2; omega
    · obtain ⟨s2, hfl, hl2⟩ := streamFlush_full (e := e) hs1 (by rw [hw1, he1, hend]; omega)
      have hL : liftS (streamFlush e) (⟨c', s1⟩ : OComp) = .err .ENOSPC ⟨c', s2⟩ := by
        unfold liftS; simp only [hfl]
      refine ⟨s2.buf, hl2, ?_⟩
      rw [if_neg (fun h => hfit (hpad.1 h)), M.bind_err hL]; rfl
  · obtain ⟨s1, hwr, hl1⟩ := writeAll_full (e := e) hok hs0 (by rw [hw0, hws, hend]; simp; omega)
    obtain ⟨c'', hx⟩ := hrun.2 _ s1 hwr
    refine ⟨s1.buf, hl1, ?_⟩
    rw [if_neg (fun h => hfit1 (by have := hpad.1 h; omega)), M.bind_err hx]; rfl

/-- The complete behaviour on aligned buffers and a non-empty input whose size is a multiple of 8. -/
theorem nonstrictCompress_eq (e : Endian) {ain aout : Nat} (j : OptJunk) (jsw : CompJunk)
    {x : List Byte} (buf : List Byte) (hal : ain % 8 = 0 ∧ aout % 8 = 0) (h8 : x.length % 8 = 0) (hne : x ≠ []) :
    ∃ b, b.length = buf.length ∧
      if paddedSize (nstreamBits x).length ≤ buf.length then
        nonstrictCompress e ain aout j jsw x buf = .ret none (paddedSize (nstreamBits x).length) b ∧
          bytesBits (b.take (paddedSize (nstreamBits x).length)) = nstreamBits x ++
            List.replicate (8 * paddedSize (nstreamBits x).length - (nstreamBits x).length) false ∧
          b.drop (paddedSize (nstreamBits x).length) = buf.drop (paddedSize (nstreamBits x).length)
      else nonstrictCompress e ain aout j jsw x buf = .ret (some .ENOSPC) 0 b := by
  have h : nonstrictCompress e ain aout j jsw x buf =
      ocompRet (ncompBody (.std e) e ain (0 + x.length / 8 + 1) x (ocompInit j x buf)) := by
    unfold nonstrictCompress
    rw [if_neg (by omega), if_neg (by omega), Nat.zero_add]
    rfl
  obtain ⟨c', hce⟩ := ncompPre_ce e (OConf.std_ok e) ain 0 h8 hne (ORep.start j x buf)
  have := flush_res e hce buf
  rw [h, ncompBody_eq]
  exact this

theorem nonstrictCompress_nil (e : Endian) {ain aout : Nat} (j : OptJunk) (jsw : CompJunk)
    (buf : List Byte) (hal : ain % 8 = 0 ∧ aout % 8 = 0) : nonstrictCompress e ain aout j jsw [] buf = .ub := by
  unfold nonstrictCompress
  rw [if_neg (by simp), if_neg (by omega)]
  have : ncompBody (.std e) e ain (([] : List Byte).length / 8 + 1) [] (ocompInit j [] buf) = .ub := by
    unfold ncompBody
    rw [M.get_bind_apply]
    cases e <;> rfl
  rw [this]

theorem nonstrictCompress_sw (e : Endian) {ain aout : Nat} (j : OptJunk) (jsw : CompJunk) (x buf : List Byte)
    (hal : ain % 8 ≠ 0 ∨ aout % 8 ≠ 0) (h8 : x.length % 8 = 0) :
    nonstrictCompress e ain aout j jsw x buf = sw842CompressF (x.length / 8 + 1) e ain jsw x buf ∧
    optsw842Compress e ain aout j jsw x buf = sw842CompressF (x.length / 8 + 1) e ain jsw x buf := by
  unfold nonstrictCompress optsw842Compress optsw842CompressF
  rw [if_neg (by omega), if_pos hal, if_neg (by omega), if_pos hal]
  exact ⟨rfl, rfl⟩

/-- Every success. -/
theorem nonstrictCompress_ok {e : Endian} {ain aout : Nat} {j : OptJunk} {jsw : CompJunk} {x buf : List Byte}
    {n : Nat} {b : List Byte} (h : nonstrictCompress e ain aout j jsw x buf = .ret none n b) :
    x.length % 8 = 0 ∧ n % 8 = 0 ∧ n ≤ b.length ∧ b.length = buf.length ∧ HwDecodes (b.take n) x := by
  by_cases h8 : x.length % 8 = 0
  swap
  · unfold nonstrictCompress at h
    rw [if_pos h8] at h; cases h
  by_cases hal : ain % 8 ≠ 0 ∨ aout % 8 ≠ 0
  · obtain ⟨h1, h2⟩ := nonstrictCompress_sw e j jsw x buf hal h8
    rw [h1, ← h2] at h
    obtain ⟨-, -, hn, hle, -, hl, hb⟩ := optsw842Compress_ok h
    refine ⟨h8, ?_, by omega, hl, optBits_decodes h8 hb⟩
    rw [hn]; unfold paddedSize; omega
  · have hal : ain % 8 = 0 ∧ aout % 8 = 0 := by omega
    by_cases hne : x = []
    · subst hne
      rw [nonstrictCompress_nil e j jsw buf hal] at h; cases h
    obtain ⟨b', hl, hr⟩ := nonstrictCompress_eq e j jsw buf hal h8 hne
    split at hr
    · obtain ⟨h1, h2, -⟩ := hr
      rw [h1] at h
      cases h
      refine ⟨h8, ?_, by omega, hl, nstreamBits_decodes h8 h2⟩
      unfold paddedSize; omega
    · rw [hr] at h; cases h

/-! ## The kernel -/

/-- The fields of a row of `dec_templates` for a list of actions. -/
inductive NsRow : List Action → List (Nat × Nat) → Prop
  | nil : NsRow [] []
  | pad {fs} : NsRow [] fs → NsRow [] ((0, 0) :: fs)
  | d {n acts fs} : SizeOk n → NsRow acts fs → NsRow (.D n :: acts) ((8 * n, n) :: fs)
  | i {n acts fs} : SizeOk n → NsRow acts fs → NsRow (.I n :: acts) ((128 + directBits n, n) :: fs)

def nsRowActs : List (Nat × Nat) → Option (List Action)
  | [] => some []
  | (t, n) :: fs =>
    match nsRowActs fs with
    | none => none
    | some acts =>
      if t = 0 ∧ n = 0 ∧ acts = [] then some []
      else if (n = 2 ∨ n = 4 ∨ n = 8) ∧ t = 8 * n then some (.D n :: acts)
      else if (n = 2 ∨ n = 4 ∨ n = 8) ∧ t = 128 + directBits n then some (.I n :: acts)
      else none

theorem nsRowActs_ok : ∀ fs acts, nsRowActs fs = some acts → NsRow acts fs := by
  intro fs
  induction fs with
  | nil => intro acts h; cases h; exact .nil
  | cons f fs ih =>
    intro acts h
    obtain ⟨t, n⟩ := f
    rw [nsRowActs] at h
    split at h
    · cases h
    · rename_i as hr
      have hrec := ih _ hr
      split at h
      · rename_i hc
        obtain ⟨rfl, rfl, rfl⟩ := hc
        cases h; exact .pad hrec
      · split at h
        · rename_i hc
          obtain ⟨hn, rfl⟩ := hc
          cases h; exact .d hn hrec
        · split at h
          · rename_i hc
            obtain ⟨hn, rfl⟩ := hc
            cases h; exact .i hn hrec
          · cases h

theorem nsRow_ok {c : Nat} {acts : List Action} (h : templates[c]? = some acts) :
    ∃ row, nsTemplates[c]? = some row ∧ NsRow acts row := by
  have hall : ∀ c : Nat, c < 26 → ((nsTemplates[c]?).bind nsRowActs = templates[c]?) := by decide +kernel
  have hc : c < 26 := (templates_ok c acts h).1
  have := hall c hc
  rw [h] at this
  cases hr : nsTemplates[c]? with
  | none => rw [hr] at this; cases this
  | some row =>
    rw [hr] at this
    exact ⟨row, rfl, nsRowActs_ok _ _ this⟩

theorem nsField_pad {p : CudaP} {ow : BitVec 64} {b : Nat} (hw : WinOk p.buffer p.bits) :
    ∃ p', nsField 0 0 (ow, b) p = .ok (ow, b) p' ∧ CSame p p' ∧ p'.rest = p.rest ∧
      WinOk p'.buffer p'.bits := by
  obtain ⟨p1, h1, hs, hr, hw1⟩ := cudaReadBits_spec (n := 0) (x := 0) (by omega) (by omega) hw
    (R := p.rest) rfl
  refine ⟨p1, ?_, hs, hr, hw1⟩
  unfold nsField
  rw [show (0 : Nat) &&& 0x7F = 0 from rfl, M.bind_ok h1]
  simp

theorem nsField_data {n : Nat} (hn : SizeOk n) {new : List Byte} (hl : new.length = n) {p : CudaP}
    {R : List Bool} (hw : WinOk p.buffer p.bits) (hr : p.rest = bytesBits new ++ R) {ow : BitVec 64}
    {bs : List Byte} (hacc : Acc ow bs) (hsz : bs.length + n ≤ 8) :
    ∃ p' ow', nsField (8 * n) n (ow, 8 * bs.length) p = .ok (ow', 8 * (bs ++ new).length) p' ∧
      CSame p p' ∧ p'.rest = R ∧ WinOk p'.buffer p'.bits ∧ Acc ow' (bs ++ new) := by
  have hb : bytesBits new = bitsOf (8 * n) (bitsVal (bytesBits new)) := by
    have := bitsOf_bitsVal (bytesBits new)
    rw [length_bytesBits, hl] at this
    exact this.symm
  have hlt : bitsVal (bytesBits new) < 2 ^ (8 * n) := by
    have := bitsVal_lt (bytesBits new)
    rwa [length_bytesBits, hl] at this
  have hn64 : 8 * n ≤ 64 := by rcases hn with rfl | rfl | rfl <;> omega
  have hlt64 : bitsVal (bytesBits new) < 2 ^ 64 :=
    Nat.lt_of_lt_of_le hlt (Nat.pow_le_pow_right (by omega) hn64)
  obtain ⟨p1, h1, hs, hr1, hw1⟩ := cudaReadBits_spec (n := 8 * n) hn64 hlt hw (R := R) (by rw [hr, ← hb])
  have hand : (8 * n) &&& 0x7F = 8 * n := by rcases hn with rfl | rfl | rfl <;> rfl
  have hsr : (8 * n) >>> 7 = 0 := by rcases hn with rfl | rfl | rfl <;> rfl
  have hsl : n <<< 3 = 8 * n := by rw [Nat.shiftLeft_eq]; omega
  refine ⟨p1, _, ?_, hs, hr1, hw1, hacc.step (new := new)
    (v := BitVec.ofNat 64 (bitsVal (bytesBits new))) (by omega) ?_ ?_⟩
  · unfold nsField
    rw [hand, M.bind_ok h1]
    simp only [hsr, hsl, zero_ne_one, if_false, M.pure_bind_apply, M.pure_apply]
    rw [if_pos (by omega), hl, List.length_append, hl, Nat.mul_add]
  · intro h; rw [h] at hl; rcases hn with rfl | rfl | rfl <;> simp at hl
  · rw [BitVec.toNat_ofNat, Nat.mod_eq_of_lt hlt64]

theorem nsField_index {n v : Nat} (hn : SizeOk n) (hv : v < 2 ^ directBits n) {p : CudaP}
    {R : List Bool} (hw : WinOk p.buffer p.bits) (hr : p.rest = bitsOf (directBits n) v ++ R) {ow : BitVec 64}
    {bs : List Byte} (hacc : Acc ow bs) (hsz : bs.length + n ≤ 8) (hol : 8 * p.out ≤ p.buf.length)
    (href : n * v + n ≤ 8 * p.out) :
    ∃ p' ow', nsField (128 + directBits n) n (ow, 8 * bs.length) p =
        .ok (ow', 8 * (bs ++ (p.buf.drop (n * v)).take n).length) p' ∧
      CSame p p' ∧ p'.rest = R ∧ WinOk p'.buffer p'.bits ∧ Acc ow' (bs ++ (p.buf.drop (n * v)).take n) := by
  have hib : directBits n ≤ 64 := by unfold directBits; split <;> (try split) <;> omega
  obtain ⟨p1, h1, hs, hr1, hw1⟩ := cudaReadBits_spec (n := directBits n) hib hv hw hr
  have hand : (128 + directBits n) &&& 0x7F = directBits n := by rcases hn with rfl | rfl | rfl <;> rfl
  have hsr : (128 + directBits n) >>> 7 = 1 := by rcases hn with rfl | rfl | rfl <;> rfl
  have hsl : n <<< 3 = 8 * n := by rw [Nat.shiftLeft_eq]; omega
  have hv64 : v < 2 ^ 64 := Nat.lt_of_lt_of_le hv (Nat.pow_le_pow_right (by omega) hib)
  have hgi : (BitVec.ofNat 64 v).toNat * n = n * v := by
    rw [BitVec.toNat_ofNat, Nat.mod_eq_of_lt hv64, Nat.mul_comm]
  obtain ⟨w, hw2, hwv⟩ := cudaLoad_spec hn (p := p1) (o := n * v) (by rw [hs.buf]; omega)
  rw [hs.buf] at hwv
  have hlen : ((p.buf.drop (n * v)).take n).length = n := by simp; omega
  refine ⟨p1, _, ?_, hs, hr1, hw1, hacc.step (new := (p.buf.drop (n * v)).take n) (v := w) (by omega) ?_ hwv⟩
  · unfold nsField
    rw [hand, M.bind_ok h1]
    simp only [hsr, if_true]
    rw [hgi, M.bind_ok hw2]
    simp only [M.pure_apply, hsl]
    rw [if_pos (by omega), hlen, List.length_append, hlen, Nat.mul_add]
  · intro h; rw [h] at hlen; rcases hn with rfl | rfl | rfl <;> simp at hlen

theorem nsFields_spec {acts : List Action} {fs : List (Nat × Nat)} (h : NsRow acts fs) {p : CudaP}
    (hw : WinOk p.buffer p.bits) (hol : 8 * p.out ≤ p.buf.length) {args : List Arg}
    (hargs : args.map Arg.action = acts) (hval : ∀ size i, .index size i ∈ args → i < 2 ^ directBits size) {R : List Bool}
    (hr : p.rest = args.flatMap Arg.directBits ++ R) {ow : BitVec 64} {bs : List Byte} (hacc : Acc ow bs)
    (hsz : bs.length + actionsSize acts ≤ 8) {o : List Byte} (hrun : DArgsRun (p.outp ++ bs) args o) :
    ∃ p' l bs', nsFields fs (ow, 8 * bs.length) p = .ok l p' ∧ CSame p p' ∧ p'.rest = R ∧
      WinOk p'.buffer p'.bits ∧ Acc l.1 bs' ∧ o = p.outp ++ bs' := by
  induction h generalizing p args ow bs with
  | nil =>
    rw [List.map_eq_nil_iff] at hargs
    subst hargs
    cases hrun
    exact ⟨p, _, bs, rfl, ⟨rfl, rfl⟩, by simpa using hr, hw, hacc, rfl⟩
  | pad _ ih =>
    obtain ⟨p1, h1, hs1, hr1, hw1⟩ := nsField_pad (ow := ow) (b := 8 * bs.length) hw
    rw [nsFields, M.bind_ok h1]
    obtain ⟨p2, l, bs', h2, hs2, hr2, hw2, ha2, ho⟩ := ih hw1 (by rw [hs1.out, hs1.buf]; exact hol) hargs hval
      (by rw [hr1]; exact hr) hacc hsz (by rw [hs1.outp]; exact hrun)
    exact ⟨p2, l, bs', h2, hs1.trans hs2, hr2, hw2, ha2, by rw [ho, hs1.outp]⟩
  | @d n acts fs hn _ ih =>
    cases hrun with
    | nil => simp at hargs
    | @cons _ a _ as _ hst hrest =>
      rw [List.map_cons, List.cons.injEq] at hargs
      cases hst with
      | index _ => simp [Arg.action] at hargs
      | @data new =>
        have hl : new.length = n := by simpa [Arg.action] using hargs.1
        have hs : actionsSize (.D n :: acts) = n + actionsSize acts := by simp [actionsSize, actionSize]
        rw [List.flatMap_cons, List.append_assoc] at hr
        obtain ⟨p1, ow1, h1, hs1, hr1, hw1, ha1⟩ := nsField_data hn hl hw hr hacc (by omega)
        rw [nsFields, M.bind_ok h1]
        obtain ⟨p2, l, bs', h2, hs2, hr2, hw2, ha2, ho⟩ := ih hw1 (by rw [hs1.out, hs1.buf]; exact hol) hargs.2
          (fun s x hx => hval s x (List.mem_cons_of_mem _ hx)) hr1 ha1 (by rw [List.length_append]; omega)
          (by rw [hs1.outp, ← List.append_assoc]; exact hrest)
        exact ⟨p2, l, bs', h2, hs1.trans hs2, hr2, hw2, ha2, by rw [ho, hs1.outp]⟩
  | @i n acts fs hn _ ih =>
    cases hrun with
    | nil => simp at hargs
    | @cons _ a _ as _ hst hrest =>
      rw [List.map_cons, List.cons.injEq] at hargs
      cases hst with
      | data => simp [Arg.action] at hargs
      | @index n2 v href =>
        obtain ⟨h1, hargs2⟩ := hargs
        simp only [Arg.action, Action.I.injEq] at h1
        subst h1
        have hs : actionsSize (.I n2 :: acts) = n2 + actionsSize acts := by simp [actionsSize, actionSize]
        have hv : v < 2 ^ directBits n2 := hval _ _ List.mem_cons_self
        have hn2 : 2 ≤ n2 := by rcases hn with rfl | rfl | rfl <;> omega
        have hlo : p.outp.length = 8 * p.out := by unfold CudaP.outp; simp; omega
        rw [List.length_append, hlo] at href
        have href' : n2 * v + n2 ≤ 8 * p.out := by omega
        rw [List.flatMap_cons, List.append_assoc] at hr
        obtain ⟨p1, ow1, h1, hs1, hr1, hw1, ha1⟩ := nsField_index hn hv hw hr hacc (by omega) hol href'
        rw [nsFields, M.bind_ok h1]
        have hcopy : ((p.outp ++ bs).drop (n2 * v)).take n2 = (p.buf.drop (n2 * v)).take n2 := by
          unfold CudaP.outp at hlo ⊢
          rw [List.drop_append_of_le_length (by omega), List.drop_take,
            List.take_append_of_le_length (by simp; omega), List.take_take, Nat.min_eq_left (by omega)]
        rw [hcopy] at hrest
        have hlen : ((p.buf.drop (n2 * v)).take n2).length = n2 := by simp; omega
        obtain ⟨p2, l, bs', h2, hs2, hr2, hw2, ha2, ho⟩ := ih hw1 (by rw [hs1.out, hs1.buf]; exact hol) hargs2
          (fun s x hx => hval s x (List.mem_cons_of_mem _ hx)) hr1 ha1 (by rw [List.length_append]; omega)
          (by rw [hs1.outp, ← List.append_assoc]; exact hrest)
        exact ⟨p2, l, bs', h2, hs1.trans hs2, hr2, hw2, ha2, by rw [ho, hs1.outp]⟩

/-! ## Iterations -/

theorem nsIter_end {p : CudaP} (hw : WinOk p.buffer p.bits) {R : List Bool}
    (hr : p.rest = bitsOf 5 0x1e ++ R) : ∃ p', nsIter p = .ok true p' ∧ CSame p p' := by
  obtain ⟨p1, h1, hs, -, -⟩ := cudaReadBits_spec (n := 5) (x := 0x1e) (by omega) (by omega) hw hr
  refine ⟨p1, ?_, hs⟩
  unfold nsIter
  rw [M.bind_ok h1]
  rfl

theorem DArgsRun.length_eq {a b : List Byte} {as : List Arg} (h : DArgsRun a as b) :
    b.length = a.length + actionsSize (as.map Arg.action) := by
  induction h with
  | nil => simp [actionsSize]
  | cons h1 _ ih =>
    cases h1 with
    | data => rw [ih]; simp [actionsSize, actionSize, Arg.action]; omega
    | index href => rw [ih]; simp [actionsSize, actionSize, Arg.action]; omega

theorem DRun.length_le {a b : List Byte} {ops : List DOp} (h : DRun a ops b) : a.length ≤ b.length := by
  induction h with
  | nil => exact Nat.le_refl _
  | cons h1 _ ih => have := DArgsRun.length_eq h1; omega

theorem nsIter_op {p : CudaP} (hw : WinOk p.buffer p.bits) (hol : 8 * p.out ≤ p.buf.length) {op : DOp}
    (hv : op.Valid) {R : List Bool} (hr : p.rest = op.bits ++ R) {o : List Byte}
    (hrun : DArgsRun p.outp op.args o) (hfit : o.length ≤ p.buf.length) :
    ∃ p', nsIter p = .ok false p' ∧ COut p p' o ∧ p'.rest = R ∧ WinOk p'.buffer p'.bits := by
  have hlo : p.outp.length = 8 * p.out := by unfold CudaP.outp; simp; omega
  obtain ⟨code, args⟩ := op
  obtain ⟨ht, hva⟩ := hv
  obtain ⟨hc, -, h8, -⟩ := templates_ok code _ ht
  have hlen := DArgsRun.length_eq hrun
  have h8' : actionsSize (args.map Arg.action) = 8 := h8
  rw [h8'] at hlen
  obtain ⟨row, hrow, hnsrow⟩ := nsRow_ok ht
  simp only [DOp.bits, List.append_assoc] at hr
  obtain ⟨p1, h1, hs1, hr1, hw1⟩ := cudaReadBits_spec (n := 5) (x := code) (by omega) (by omega) hw hr
  obtain ⟨p2, l, bs', h2, hs2, hr2, hw2, ha2, ho⟩ := nsFields_spec hnsrow hw1
    (by rw [hs1.out, hs1.buf]; exact hol) rfl hva hr1 Acc.nil (by simp; omega)
    (by rw [hs1.outp, List.append_nil]; exact hrun)
  rw [hs1.outp] at ho
  have hs := hs1.trans hs2
  have hl8 : bs'.length = 8 := by rw [ho, List.length_append] at hlen; omega
  obtain ⟨p3, h3, ho3, hi3⟩ := cudaPut_ok (p := p2) hl8 (by rw [hs.out, hs.buf]; omega)
  refine ⟨p3, ?_, ?_, by rw [hi3.rest, hr2], hi3.win hw2⟩
  · unfold nsIter
    rw [M.bind_ok h1]
    have hcm : (BitVec.ofNat 64 code).toNat = code := by
      rw [BitVec.toNat_ofNat, Nat.mod_eq_of_lt (by omega)]
    rw [hcm, if_neg (by omega), M.access_bind_some (g := fun _ : CudaP => nsTemplates[code]?) hrow]
    rw [show (0#64, 0) = (0#64, 8 * ([] : List Byte).length) from rfl, M.bind_ok h2]
    have hb : wordBytes64 .little (swap64 l.1) = bs' := ha2.bytes hl8 .little
    rw [hb, M.bind_ok h3]
    rfl
  · have := (COut.same hol hs).trans ho3 (by rw [hs.outp]; simp)
    rw [hs.outp, ← ho] at this
    exact this

theorem nsLoop_ok {ops : List DOp} (hval : ∀ op ∈ ops, op.Valid)
    {p : CudaP} (hw : WinOk p.buffer p.bits) (hol : 8 * p.out ≤ p.buf.length) {R : List Bool}
    (hr : p.rest = ops.flatMap DOp.bits ++ (bitsOf 5 0x1e ++ R)) {data : List Byte}
    (hrun : DRun p.outp ops data) (hfit : data.length ≤ p.buf.length) {fuel : Nat} (hf : ops.length < fuel) :
    ∃ p', M.doWhile nsIter fuel p = .ok () p' ∧ COut p p' data := by
  induction ops generalizing p fuel with
  | nil =>
    cases hrun
    obtain ⟨fuel, rfl⟩ : ∃ f, fuel = f + 1 := ⟨fuel - 1, by simp at hf; omega⟩
    obtain ⟨p1, h1, hs⟩ := nsIter_end hw (by simpa using hr)
    refine ⟨p1, ?_, COut.same hol hs⟩
    rw [M.doWhile, M.bind_ok h1]
    rfl
  | cons op ops ih =>
    cases hrun with
    | @cons _ _ o _ _ h1 h2 =>
      obtain ⟨fuel, rfl⟩ : ∃ f, fuel = f + 1 := ⟨fuel - 1, by simp at hf; omega⟩
      have hle := DRun.length_le h2
      rw [List.flatMap_cons, List.append_assoc] at hr
      obtain ⟨p1, hi, ho1, hr1, hw1⟩ := nsIter_op hw hol (hval op List.mem_cons_self) hr h1 (by omega)
      have hb := ho1.length (by omega)
      have hl := ho1.len
      obtain ⟨p2, h3, ho2⟩ := ih (fun x hx => hval x (List.mem_cons_of_mem _ hx)) hw1 (by omega) hr1 (by rw [ho1.outp]; exact h2)
        (by omega) (fuel := fuel) (by simp at hf; omega)
      refine ⟨p2, ?_, ho1.trans ho2 (by omega)⟩
      rw [M.doWhile, M.bind_ok hi]
      exact h3

theorem nsThread_ok {inp buf data : List Byte} {ops : List DOp} {R : List Bool}
    (hval : ∀ op ∈ ops, op.Valid)
    (hr : bytesBits (inp.take (8 * (inp.length / 8))) = ops.flatMap DOp.bits ++ (bitsOf 5 0x1e ++ R))
    (hrun : DRun [] ops data) (hfit : data.length ≤ buf.length) :
    nsThread inp buf = some (data ++ buf.drop data.length) := by
  have hlen : ops.length ≤ (ops.flatMap DOp.bits).length := by
    clear hr hrun hval
    induction ops with
    | nil => simp
    | cons op ops ih =>
      have : 5 ≤ op.bits.length := by simp [DOp.bits]
      rw [List.flatMap_cons, List.length_append, List.length_cons]; omega
  have hl2 := congrArg List.length hr
  rw [length_bytesBits, List.length_take, List.length_append] at hl2
  obtain ⟨p', h1, ho⟩ := nsLoop_ok hval
    (p := { inp := inp, word := 0, buf := buf, out := 0, bits := 0, buffer := 0#64 }) ⟨0, Win.zero⟩
    (by simp) (R := R) (by rw [← hr]; simp [CudaP.rest, winBits]) (by simpa [CudaP.outp] using hrun) hfit
    (fuel := 8 * inp.length + 1) (by omega)
  unfold nsThread
  rw [h1]
  simp only [ho.buf]

theorem nsThread_prefix {inp buf data : List Byte} {n : Nat} (hn : n % 8 = 0) (hle : n ≤ inp.length)
    (h : DirectDecodes (inp.take n) data) (hfit : data.length ≤ buf.length) :
    nsThread inp buf = some (data ++ buf.drop data.length) := by
  obtain ⟨ops, rest, hv, hx, hb⟩ := h
  obtain ⟨tl, htl⟩ : ∃ tl, inp.take (8 * (inp.length / 8)) = inp.take n ++ tl := by
    refine ⟨(inp.take (8 * (inp.length / 8))).drop n, ?_⟩
    conv => lhs; rw [← List.take_append_drop n (inp.take (8 * (inp.length / 8)))]
    rw [List.take_take, Nat.min_eq_left (by omega)]
  refine nsThread_ok hv (R := rest ++ bytesBits tl) ?_ hx hfit
  rw [htl, bytesBits_append, hb]
  simp only [List.append_assoc]

/-! ## Chunks without references -/

theorem literalBits_sum (args : List Arg) : literalBits args ≤ 8 * sumSizes (args.map Arg.action) := by
  induction args with
  | nil => simp [literalBits]
  | cons a as ih => cases a <;> (simp [literalBits, sumSizes, Arg.action, actionSize] at ih ⊢; omega)

theorem literalBits_index {args : List Arg} {s i : Nat} (h : .index s i ∈ args) :
    literalBits args + 8 * s ≤ 8 * sumSizes (args.map Arg.action) := by
  induction args with
  | nil => cases h
  | cons a as ih =>
    rw [List.mem_cons] at h
    rcases h with rfl | h
    · have := literalBits_sum as
      simp [literalBits, sumSizes, Arg.action, actionSize] at this ⊢; omega
    · have := ih h
      cases a <;> (simp [literalBits, sumSizes, Arg.action, actionSize] at this ⊢; omega)

theorem args_direct {out out' : List Byte} {args : List Arg} (h : ArgsRun out args out')
    (hn : ∀ s i, .index s i ∉ args) : DArgsRun out args out' ∧ args.flatMap Arg.bits = args.flatMap Arg.directBits := by
  induction h with
  | nil => exact ⟨.nil, rfl⟩
  | @cons out a mid as out' h1 h2 ih =>
    obtain ⟨i1, i2⟩ := ih fun s i hi => hn s i (List.mem_cons_of_mem _ hi)
    cases h1 with
    | data => exact ⟨.cons .data i1, by rw [List.flatMap_cons, List.flatMap_cons, i2]; rfl⟩
    | index _ => exact absurd List.mem_cons_self (hn _ _)

theorem newIn_all {x : List Byte} (h : AllNew x) {a n : Nat} (hl : a + n ≤ x.length / 2) : newIn x a n = n := by
  unfold newIn
  rw [List.countP_eq_length.2, List.length_range']
  intro k hk
  rw [List.mem_range'_1] at hk
  exact h k (by omega)

theorem op_direct {x out out' : List Byte} {op : Op} (hx : AllNew x) (hv : op.Valid) (hs : op.isShort = false)
    (h : OpStep out op out') (hp : out' <+: x) (hm : out.length % 8 = 0) :
    ∃ d : DOp, d.Valid ∧ d.bits = op.bits ∧ DArgsRun out d.args out' := by
  have hpl := hp.length_le
  cases h with
  | @template code args _ hr =>
    obtain ⟨-, hok, hsum, -⟩ := templates_ok code _ hv.1
    have hl : out'.length = out.length + 8 := by
      have := Lib842.ArgsRun.length_sum hr
      rw [this, hsum]
    obtain ⟨h1, -⟩ := args_new hr hp (g := out.length / 8) (by omega) (by omega) (by omega)
      (fun a ha => hok _ (List.mem_map_of_mem ha))
    rw [newIn_all hx (by omega)] at h1
    have hno : ∀ s i, .index s i ∉ args := by
      intro s i hi
      have h2 := literalBits_index hi
      rw [hsum] at h2
      have h3 : SizeOk s := hok _ (List.mem_map_of_mem hi)
      have : 2 ≤ s := by rcases h3 with rfl | rfl | rfl <;> omega
      omega
    obtain ⟨h2, h3⟩ := args_direct hr hno
    exact ⟨⟨code, args⟩, ⟨hv.1, fun s i hi => absurd hi (hno s i)⟩, by simp only [DOp.bits, Op.bits, h3], h2⟩
  | @rep n h8 =>
    exfalso
    have hl : (out.drop (out.length - 8)).length = 8 := by simp; omega
    have hfl := length_repl hl (n := n + 1)
    rw [List.length_append, hfl] at hpl
    have := repeat_new hv h8 hm hp (i := 0) (by omega)
    unfold groupCost at this
    rw [newIn_all hx (by omega)] at this
    simp at this
  | zeros =>
    exfalso
    rw [List.length_append, List.length_replicate] at hpl
    have := zeros_new hm hp
    unfold groupCost at this
    rw [newIn_all hx (by omega)] at this
    simp at this
  | short => cases hs

theorem run_direct {x out out' : List Byte} {ops : List Op} (hx : AllNew x) (hv : ∀ op ∈ ops, op.Valid)
    (hs : ∀ op ∈ ops, op.isShort = false) (h : Run out ops out') (hp : out' <+: x) (hm : out.length % 8 = 0) :
    ∃ ds : List DOp, (∀ d ∈ ds, d.Valid) ∧ ds.flatMap DOp.bits = ops.flatMap Op.bits ∧ DRun out ds out' := by
  induction h with
  | nil => exact ⟨[], by simp, rfl, .nil⟩
  | @cons out op mid ops out' h1 h2 ih =>
    have hmp := (Run.prefix_of h2).trans hp
    obtain ⟨d, d1, d2, d3⟩ := op_direct hx (hv op List.mem_cons_self) (hs op List.mem_cons_self) h1 hmp hm
    obtain ⟨-, hm', -⟩ := op_cost (hv op List.mem_cons_self) (hs op List.mem_cons_self) h1 hmp hm
    obtain ⟨ds, e1, e2, e3⟩ := ih (fun o ho => hv o (List.mem_cons_of_mem _ ho))
      (fun o ho => hs o (List.mem_cons_of_mem _ ho)) hp hm'
    refine ⟨d :: ds, ?_, by rw [List.flatMap_cons, List.flatMap_cons, d2, e2], .cons d3 e3⟩
    intro a ha
    rcases List.mem_cons.1 ha with rfl | ha
    · exact d1
    · exact e1 a ha

/-- A stream for a string of new words is a stream of both formats. -/
theorem hw_direct {inp x : List Byte} (hx : AllNew x) (h : HwDecodes inp x) : DirectDecodes inp x := by
  obtain ⟨ops, rest, ⟨hv, hr⟩, hs, hb⟩ := h
  obtain ⟨ds, d1, d2, d3⟩ := run_direct hx hv hs hr List.prefix_rfl rfl
  refine ⟨ds, bitsOf 32 (crc x).toNat ++ rest, d1, d3, ?_⟩
  rw [hb, d2]
  simp only [trailer, List.append_assoc]

end Lib842
