import Verif.Proofs.Config
/-!
# The configuration without CRC
-/

namespace Lib842
open Spec ODecomp

namespace Config

/-- The bits of a stream without CRC, without padding. -/
noncomputable def plainBits (x : List Byte) : List Bool := (orefOps x).flatMap Op.bits ++ bitsOf 5 0x1e

/-- Everything up to the flush, without CRC. -/
def ocompPreNC (cf : OConf) (e : Endian) (fuel : Nat) : M OComp Unit := do
  let p ← M.get
  let first ← M.access fun _ => load64 e p.core.inp p.core.pos
  let rc ← ocompLoop cf e fuel (~~~ first) 0
  if rc ≠ 0 then liftS (oaddRepeat e rc) else pure ()
  liftS (streamWriteBits e 0x1E#64 5)

theorem ocompBodyC_eq (cf : OConf) {cfg : OptCfg} (hc : cfg.crc = false) (e : Endian) (addr fuel : Nat) (inp : List Byte) :
    ocompBodyC cf cfg e addr fuel inp = (ocompPreNC cf e fuel >>= fun _ => do
      liftS (streamFlush e)
      let p ← M.get
      pure (8 * p.s.ptr)) := by
  have hi : ∀ {α β : Type} (c : Prop) [Decidable c] (f g : M OComp α) (k : α → M OComp β),
      ((if c then f else g) >>= k) = (if c then f >>= k else g >>= k) := by
    intro α β c _ f g k; split <;> rfl
  unfold ocompBodyC ocompPreNC
  rw [hc]
  simp only [M.bind_assoc', hi, Bool.false_eq_true, if_false]

theorem ocompBodyC_std (cf : OConf) {cfg : OptCfg} (hc : cfg.crc = true) (e : Endian) (addr fuel : Nat) (inp : List Byte) :
    ocompBodyC cf cfg e addr fuel inp = ocompBody cf e addr fuel inp := by
  unfold ocompBodyC ocompBody
  rw [hc]
  simp only [if_true]

theorem ocompPreNC_ce (e : Endian) {cf : OConf} (hcf : cf.Ok e) (m : Nat) {x : List Byte} (h8 : x.length % 8 = 0) (hne : x ≠ [])
    {c : OCore} (hr : ORep c .init x 0) :
    ∃ c', CE e (ocompPreNC cf e (m + x.length / 8 + 1)) c () c' (plainBits x) := by
  have hpos : 0 < x.length := List.length_pos_iff.2 hne
  have htr : ∀ c, CE e (liftS (streamWriteBits e 0x1E#64 5)) c () c (bitsOf 5 0x1e) := by
    intro c
    exact CE.writeBits (v := 0x1E#64) (n := 5) (by omega) (by omega) (by decide) c
  obtain ⟨v, hv, -⟩ := load64_key e (x := x) (o := 0) (by omega)
  obtain ⟨c1, rc1, A, hem, hrc, hbits⟩ := ocompLoop_ce e hcf x m (x.length / 8) (last := ~~~ v)
    (lastO := none) (rc := 0) rfl hr (by omega)
    (fun _ u hu => by
      rw [hv] at hu
      obtain rfl := Option.some.inj hu
      constructor
      · intro h
        have := congrArg (fun t : BitVec 64 => t.getLsbD 0) h
        simp at this
      · intro h; cases h) (by omega)
  refine ⟨c1, ?_⟩
  unfold ocompPreNC plainBits orefOps
  rw [hbits, List.append_assoc]
  refine CE.get_bind' (g := fun c => do
      let first ← M.access fun _ => load64 e c.inp c.pos
      let rc ← ocompLoop cf e (m + x.length / 8 + 1) (~~~ first) 0
      if rc ≠ 0 then liftS (oaddRepeat e rc) else Pure.pure ()
      liftS (streamWriteBits e 0x1E#64 5)) (fun _ => rfl) ?_
  refine CE.access_bind (a := v) (fun s => by rw [hr.inp, hr.pos]; exact hv) ?_
  refine hem.bind ?_
  by_cases h0 : rc1 = 0
  · rw [if_neg (fun h => h h0), repOps, if_pos h0]
    exact htr c1
  · rw [if_pos h0, repOps, if_neg h0]
    exact (oaddRepeat_ce e (r := rc1) (by omega) (by omega) c1).seq (htr c1) (by simp)

/-- The complete behaviour of the main part without CRC. -/
theorem ocompBodyNC_res {cfg : OptCfg} (hc : cfg.crc = false) (e : Endian) {cf : OConf} (hcf : cf.Ok e) (m ain : Nat) (j : OptJunk)
    {x : List Byte} (buf : List Byte) (h8 : x.length % 8 = 0) (hne : x ≠ []) :
    ∃ b, b.length = buf.length ∧
      if paddedSize (plainBits x).length ≤ buf.length then
        ocompRet (ocompBodyC cf cfg e ain (m + x.length / 8 + 1) x (ocompInit j x buf)) =
            .ret none (paddedSize (plainBits x).length) b ∧
          bytesBits (b.take (paddedSize (plainBits x).length)) = plainBits x ++
            List.replicate (8 * paddedSize (plainBits x).length - (plainBits x).length) false ∧
          b.drop (paddedSize (plainBits x).length) = buf.drop (paddedSize (plainBits x).length)
      else ocompRet (ocompBodyC cf cfg e ain (m + x.length / 8 + 1) x (ocompInit j x buf)) = .ret (some .ENOSPC) 0 b := by
  obtain ⟨c', ws, hok, hws, hrun⟩ := ocompPreNC_ce e hcf m h8 hne (ORep.start j x buf)
  have hrun := hrun (streamOpen buf)
  have hs0 := streamOpen_ok buf
  have hw0 := streamOpen_written buf
  have hend : (streamOpen buf).endw = buf.length / 8 := rfl
  have hinit : ocompInit j x buf = ⟨(ocompInit j x buf).core, streamOpen buf⟩ := rfl
  rw [ocompBodyC_eq cf hc, hinit]
  generalize plainBits x = B at *
  have hpad : paddedSize B.length ≤ buf.length ↔ (B.length + 63) / 64 ≤ buf.length / 8 := by
    unfold paddedSize; omega
  by_cases hfit1 : B.length / 64 ≤ buf.length / 8
  · obtain ⟨s1, hwr, hs1, he1, hw1⟩ := writeAll_ok (e := e) hok hs0 (by rw [hw0, hws, hend]; simpa using hfit1)
    rw [hw0, List.nil_append, hws] at hw1
    have hx := hrun.1 s1 hwr
    rw [M.bind_ok hx]
    by_cases hfit : (B.length + 63) / 64 ≤ buf.length / 8
    · obtain ⟨s2, hfl, hl2, hp2, htail, hbits⟩ := streamFlush_ok (e := e) hs1 (by rw [hw1, he1, hend]; exact hfit)
      rw [hw1] at hbits hp2
      have hps : paddedSize B.length = 8 * s2.ptr := by rw [hp2]; rfl
      have hL : liftS (streamFlush e) (⟨c', s1⟩ : OComp) = .ok () ⟨c', s2⟩ := by
        unfold liftS; simp only [hfl]
      refine ⟨s2.buf, hl2, ?_⟩
      rw [if_pos (hpad.2 hfit), hps]
      refine ⟨?_, ?_, ?_⟩
      · rw [M.bind_ok hL]; rfl
      · rw [hbits]; congr 2; omega
      · exact htail
    · obtain ⟨s2, hfl, hl2⟩ := streamFlush_full (e := e) hs1 (by rw [hw1, he1, hend]; omega)
      have hL : liftS (streamFlush e) (⟨c', s1⟩ : OComp) = .err .ENOSPC ⟨c', s2⟩ := by
        unfold liftS; simp only [hfl]
      refine ⟨s2.buf, hl2, ?_⟩
      rw [if_neg (fun h => hfit (hpad.1 h)), M.bind_err hL]; rfl
  · obtain ⟨s1, hwr, hl1⟩ := writeAll_full (e := e) hok hs0 (by rw [hw0, hws, hend]; simp; omega)
    obtain ⟨c'', hx⟩ := hrun.2 _ s1 hwr
    refine ⟨s1.buf, hl1, ?_⟩
    rw [if_neg (fun h => hfit1 (by have := hpad.1 h; omega)), M.bind_err hx]; rfl

/-- The decoder without CRC: what it does on a complete op sequence followed by the end marker. -/
theorem optBodyNC_of (cfg : OptCfg) (hc : cfg.crc = false) (e : Endian) (aout fuel : Nat) (inp buf : List Byte)
    (hf : 8 * inp.length < 5 * fuel) {ops : List Op} {data : List Byte} (hexp : Expands ops data)
    (hsh : ∀ op ∈ ops, op.isShort = false) {R : List Bool}
    (hin : bytesBits (ODecomp.words inp) = ops.flatMap Op.bits ++ (bitsOf 5 0x1e ++ R)) :
    if data.length ≤ buf.length then ∃ p, optBodyC cfg e aout fuel (optInit inp buf) = .ok data.length p ∧
        p.buf.length = buf.length ∧ p.buf.take data.length = data
    else cfg.errors = true → ∃ p, optBodyC cfg e aout fuel (optInit inp buf) = .err .ENOSPC p ∧
        p.buf.length = buf.length := by
  have hw := words_le inp
  have hd := (optIter_ok e).loop_of (fuel := fuel) ops hexp.1 hsh (optInit_inv inp buf)
    (R := R)
    (by show (optInit inp buf).rest = _; rw [optInit_rest, hin])
    (by show (optInit inp buf).rest.length < _; rw [optInit_rest]; omega)
    (o := data) hexp.2
  rcases hd with ⟨hle, p1, h1, hi1, hl1, ho1, hr1⟩ | ⟨hlt, p1, h1⟩
  · have hl1 : p1.buf.length = buf.length := hl1
    have hle : data.length ≤ buf.length := hle
    have ho1 : p1.outp = data := ho1
    have hlen := hi1.1.length_outp
    rw [if_pos hle]
    refine ⟨p1, ?_, hl1, ?_⟩
    · unfold optBodyC
      rw [M.bind_ok ((doWhile_low (optIter_low cfg e) fuel).sim h1 hi1.2.1), hc]
      rw [if_neg (by decide), M.get_bind_apply, M.pure_apply, ← ho1, hlen]
    · rw [← ho1, hlen]; rfl
  · have hlt : buf.length < data.length := hlt
    rw [if_neg (by omega)]
    intro herr
    obtain ⟨er, cr⟩ := cfg
    simp only at herr hc
    subst herr hc
    refine ⟨p1, ?_, ?_⟩
    · unfold optBodyC
      rw [optIterC_std, M.bind_err h1]
    · have hres := (optIter_ok e).loop_res fuel (optInit_inv inp buf)
        (by show (optInit inp buf).rest.length < _; rw [optInit_rest]; omega)
      rw [h1] at hres
      cases hres with
      | err hl => exact hl

/-- With error handling and without CRC: only op sequences with an end marker are accepted. -/
theorem optBodyNC_ok (e : Endian) (aout fuel : Nat) (inp buf : List Byte)
    (hf : 8 * inp.length < 5 * fuel) :
    (∃ p ops R, optBodyC ⟨true, false⟩ e aout fuel (optInit inp buf) = .ok p.out p ∧ p.buf.length = buf.length ∧
      p.out ≤ buf.length ∧ Expands ops (p.buf.take p.out) ∧ (∀ op ∈ ops, op.isShort = false) ∧
      bytesBits (ODecomp.words inp) = ops.flatMap Op.bits ++ (bitsOf 5 0x1e ++ R)) ∨
    (∃ er p, optBodyC ⟨true, false⟩ e aout fuel (optInit inp buf) = .err er p ∧ p.buf.length = buf.length) := by
  have hw := words_le inp
  have hres := (optIter_ok e).loop_res fuel (optInit_inv inp buf)
    (by show (optInit inp buf).rest.length < _; rw [optInit_rest]; omega)
  generalize hx : M.doWhile (optIter e) fuel (optInit inp buf) = x at hres
  unfold optBodyC
  rw [optIterC_std]
  cases hres with
  | @ok p1 ops hi hl hvs hsh hrest hrun =>
    have hl : p1.buf.length = buf.length := hl
    left
    refine ⟨p1, ops, p1.rest, ?_, hl, ?_, ⟨hvs, hrun⟩, hsh, hrest⟩
    · rw [M.bind_ok hx]; rfl
    · rw [← hl]; exact hi.1.out
  | @err er p1 hl =>
    right
    exact ⟨er, p1, by rw [M.bind_err hx], hl⟩

end Config

end Lib842
