import Verif.Proofs.Cryptodev
/-!
# Properties of the hardware wrapper

C52, C53, C54, C58.
-/

namespace Lib842.Props
open Lib842 Spec

section
variable (maxChunks : Nat) (drv : Nat → CryptOp → DevMem → DriverRes) (ctx : CtxDev) (op : BitVec 16)
  (numchunks inp istride : BitVec 64) (ilens : List (BitVec 64)) (out ostride : BitVec 64) (m : DevMem)

/-- The requests that can be passed to the driver: aligned buffers, everything fits into 32 bits, and
a length is the skip marker or less than the marker of the driver. -/
def DevAccepts (maxChunks : Nat) (ctx : CtxDev) (numchunks inp istride : BitVec 64) (ilens : List (BitVec 64))
    (out ostride : BitVec 64) (olens : List (BitVec 64)) : Prop :=
  (ctx.alignmask ≠ 0 → isPointerAligned inp ctx.alignmask ∧ isPointerAligned out ctx.alignmask) ∧
  istride.toNat * numchunks.toNat < 2 ^ 32 ∧ ostride.toNat * numchunks.toNat < 2 ^ 32 ∧
  numchunks.toNat ≤ maxChunks ∧
  ∀ i < numchunks.toNat, ∀ il ol, ilens[i]? = some il → olens[i]? = some ol →
    (il.toNat = 2 ^ 64 - 1 ∨ il.toNat < 2 ^ 32 - 1) ∧ ol.toNat < 2 ^ 32

/-- C52: a request is rejected with `-EINVAL`, without touching anything, or passed to the driver;
which of the two depends only on whether it can be expressed. -/
theorem C52_rejects_iff (hi : numchunks.toNat ≤ ilens.length) (ho : numchunks.toNat ≤ m.olens.length)
    (hd : ∀ req, req.chunkdlens.length = numchunks.toNat → numchunks.toNat ≤ (drv ctx.cfd req m).chunkdlens.length) :
    (¬ DevAccepts maxChunks ctx numchunks inp istride ilens out ostride m.olens ∧
      devChunked maxChunks drv ctx op numchunks inp istride ilens out ostride m = some (-22, none, m)) ∨
    (DevAccepts maxChunks ctx numchunks inp istride ilens out ostride m.olens ∧
      ∃ ret req m', devChunked maxChunks drv ctx op numchunks inp istride ilens out ostride m = some (ret, some req, m')) := by
  have hlen : ∀ a : BitVec 64, lenOk a ↔ (a.toNat = 2 ^ 64 - 1 ∨ a.toNat < 2 ^ 32 - 1) := by
    intro a
    unfold lenOk
    rw [or_comm]
    refine or_congr ⟨fun h => by rw [h]; decide, fun h => BitVec.eq_of_toNat_eq (by rw [h]; decide)⟩ Iff.rfl
  unfold devChunked DevAccepts
  by_cases c1 : ctx.alignmask ≠ 0 ∧ (!isPointerAligned inp ctx.alignmask) = true
  · left
    rw [if_pos c1]
    refine ⟨fun h => ?_, rfl⟩
    have := (h.1 c1.1).1
    rw [this] at c1
    exact absurd c1.2 (by decide)
  rw [if_neg c1]
  by_cases c2 : ctx.alignmask ≠ 0 ∧ (!isPointerAligned out ctx.alignmask) = true
  · left
    rw [if_pos c2]
    refine ⟨fun h => ?_, rfl⟩
    have := (h.1 c2.1).2
    rw [this] at c2
    exact absurd c2.2 (by decide)
  rw [if_neg c2]
  by_cases c3 : 2 ^ 32 ≤ istride.toNat * numchunks.toNat
  · left
    rw [if_pos (stride_iff.2 c3)]
    exact ⟨fun h => by omega, rfl⟩
  rw [if_neg (fun h => c3 (stride_iff.1 h))]
  by_cases c4 : 2 ^ 32 ≤ ostride.toNat * numchunks.toNat
  · left
    rw [if_pos (stride_iff.2 c4)]
    exact ⟨fun h => by omega, rfl⟩
  rw [if_neg (fun h => c4 (stride_iff.1 h))]
  by_cases c5 : numchunks.toNat > maxChunks
  · left
    rw [if_pos c5]
    exact ⟨fun h => by omega, rfl⟩
  rw [if_neg c5]
  have hdl := hd (⟨ctx.ses, op, (istride * numchunks).truncate 32, (ostride * numchunks).truncate 32, inp, out,
        numchunks.truncate 32, (ilens.take numchunks.toNat).map lenTo32,
        (m.olens.take numchunks.toNat).map (BitVec.truncate 32)⟩)
    (by show ((m.olens.take numchunks.toNat).map _).length = _; rw [List.length_map, List.length_take]; omega)
  rcases convLens_spec ilens m.olens numchunks.toNat hi ho with ⟨g, e⟩ | ⟨⟨i, hik, a, b, g1, g2, g3⟩, e⟩
  · right
    refine ⟨⟨fun hm => ?_, by omega, by omega, by omega, ?_⟩, ?_⟩
    · refine ⟨?_, ?_⟩
      · cases hx : isPointerAligned inp ctx.alignmask with
        | true => rfl
        | false => exact absurd ⟨hm, by rw [hx]; rfl⟩ c1
      · cases hx : isPointerAligned out ctx.alignmask with
        | true => rfl
        | false => exact absurd ⟨hm, by rw [hx]; rfl⟩ c2
    · intro i hik il ol h1 h2
      obtain ⟨a, b, g1, g2, g3, g4⟩ := g i hik
      rw [g1] at h1
      rw [g2] at h2
      cases h1; cases h2
      exact ⟨(hlen _).1 g3, g4⟩
    · rw [e]
      simp only [Option.bind_eq_bind, Option.bind_some]
      split
      · exact ⟨_, _, _, rfl⟩
      · rw [copyLens_spec _ _ _ hdl ho]
        exact ⟨_, _, _, rfl⟩
  · left
    rw [e]
    refine ⟨fun h => g3 ?_, rfl⟩
    have := h.2.2.2.2 i hik a b g1 g2
    exact ⟨(hlen a).2 this.1, this.2⟩

/-- C52: what the driver gets, if it gets anything, is what the caller passed: all sizes and lengths
unchanged, and the marker for chunks to skip translated. -/
theorem C52_request_faithful (hmax : maxChunks < 2 ^ 32) (hi : numchunks.toNat ≤ ilens.length)
    (ho : numchunks.toNat ≤ m.olens.length)
    (hd : ∀ req, req.chunkdlens.length = numchunks.toNat → numchunks.toNat ≤ (drv ctx.cfd req m).chunkdlens.length) {ret : Int} {req : CryptOp} {m' : DevMem}
    (h : devChunked maxChunks drv ctx op numchunks inp istride ilens out ostride m = some (ret, some req, m')) :
    req.ses = ctx.ses ∧ req.op = op ∧ req.src = inp ∧ req.dst = out ∧
    req.numchunks.toNat = numchunks.toNat ∧ req.len.toNat = istride.toNat * numchunks.toNat ∧
    req.dlen.toNat = ostride.toNat * numchunks.toNat ∧
    req.chunklens.length = numchunks.toNat ∧ req.chunkdlens.length = numchunks.toNat ∧
    ∀ i < numchunks.toNat, ∃ il ol cl cdl, ilens[i]? = some il ∧ m.olens[i]? = some ol ∧
      req.chunklens[i]? = some cl ∧ req.chunkdlens[i]? = some cdl ∧
      ((il.toNat = 2 ^ 64 - 1 ∧ cl.toNat = 2 ^ 32 - 1) ∨ (cl.toNat = il.toNat ∧ cl.toNat ≠ 2 ^ 32 - 1)) ∧
      cdl.toNat = ol.toNat := by
  rcases C52_rejects_iff maxChunks drv ctx op numchunks inp istride ilens out ostride m hi ho hd with
    ⟨_, h'⟩ | ⟨hacc, _⟩
  · rw [h] at h'; cases h'
  obtain ⟨_, a2, a3, a4, a5⟩ := hacc
  have hreq : req = ⟨ctx.ses, op, (istride * numchunks).truncate 32, (ostride * numchunks).truncate 32, inp, out,
      numchunks.truncate 32, (ilens.take numchunks.toNat).map lenTo32,
      (m.olens.take numchunks.toNat).map (BitVec.truncate 32)⟩ := by
    unfold devChunked at h
    split at h
    · cases h
    split at h
    · cases h
    split at h
    · cases h
    split at h
    · cases h
    split at h
    · cases h
    have hdl := hd (⟨ctx.ses, op, (istride * numchunks).truncate 32, (ostride * numchunks).truncate 32, inp, out,
          numchunks.truncate 32, (ilens.take numchunks.toNat).map lenTo32,
          (m.olens.take numchunks.toNat).map (BitVec.truncate 32)⟩)
      (by show ((m.olens.take numchunks.toNat).map _).length = _; rw [List.length_map, List.length_take]; omega)
    rcases convLens_spec ilens m.olens numchunks.toNat hi ho with ⟨_, e⟩ | ⟨_, e⟩
    · rw [e] at h
      simp only [Option.bind_eq_bind, Option.bind_some] at h
      split at h
      · cases h; rfl
      · rw [copyLens_spec _ _ _ hdl ho] at h
        cases h; rfl
    · rw [e] at h; cases h
  have hn : numchunks.toNat < 2 ^ 32 := Nat.lt_of_le_of_lt a4 hmax
  have hmul : ∀ st : BitVec 64, st.toNat * numchunks.toNat < 2 ^ 32 →
      ((st * numchunks).setWidth 32).toNat = st.toNat * numchunks.toNat := by
    intro st hst
    rw [BitVec.toNat_setWidth, BitVec.toNat_mul, Nat.mod_eq_of_lt (a := st.toNat * _) (by omega), Nat.mod_eq_of_lt hst]
  subst hreq
  refine ⟨rfl, rfl, rfl, rfl, ?_, hmul _ a2, hmul _ a3, ?_, ?_, ?_⟩
  · show (numchunks.setWidth 32).toNat = _
    rw [BitVec.toNat_setWidth, Nat.mod_eq_of_lt hn]
  · show ((ilens.take numchunks.toNat).map lenTo32).length = _
    rw [List.length_map, List.length_take]; omega
  · show ((m.olens.take numchunks.toNat).map _).length = _
    rw [List.length_map, List.length_take]; omega
  · intro i hik
    have ha : ilens[i]? = some ilens[i] := List.getElem?_eq_getElem (by omega)
    have hb : m.olens[i]? = some m.olens[i] := List.getElem?_eq_getElem (by omega)
    obtain ⟨b1, b2⟩ := a5 i hik _ _ ha hb
    refine ⟨_, _, lenTo32 ilens[i], (m.olens[i]).truncate 32, ha, hb, ?_, ?_, ?_, ?_⟩
    · show ((ilens.take numchunks.toNat).map lenTo32)[i]? = _
      rw [List.getElem?_map, List.getElem?_take_of_lt hik, ha]; rfl
    · show ((m.olens.take numchunks.toNat).map _)[i]? = _
      rw [List.getElem?_map, List.getElem?_take_of_lt hik, hb]; rfl
    · unfold lenTo32
      by_cases hx : ilens[i] = BitVec.allOnes 64
      · rw [if_pos hx, hx]
        left; decide
      · right
        rw [if_neg hx]
        have hlt : ilens[i].toNat < 2 ^ 32 - 1 := by
          rcases b1 with b1 | b1
          · exact absurd (BitVec.eq_of_toNat_eq (by rw [b1]; decide)) hx
          · exact b1
        have : ((ilens[i]).setWidth 32).toNat = ilens[i].toNat := by
          rw [BitVec.toNat_setWidth, Nat.mod_eq_of_lt (by omega)]
        refine ⟨this, ?_⟩
        show ((ilens[i]).setWidth 32).toNat ≠ _
        omega
    · show ((m.olens[i]).setWidth 32).toNat = _
      rw [BitVec.toNat_setWidth, Nat.mod_eq_of_lt b2]

/-- C52: the way back.  An error of the driver is returned as `-errno` and leaves the lengths alone;
otherwise the result is 0 and the lengths are those the driver has reported; beyond the chunks of
the request nothing changes. -/
theorem C52_results (hi : numchunks.toNat ≤ ilens.length) (ho : numchunks.toNat ≤ m.olens.length)
    (hd : ∀ req, req.chunkdlens.length = numchunks.toNat → numchunks.toNat ≤ (drv ctx.cfd req m).chunkdlens.length) {ret : Int} {req : CryptOp} {m' : DevMem}
    (h : devChunked maxChunks drv ctx op numchunks inp istride ilens out ostride m = some (ret, some req, m')) :
    m'.rets = (drv ctx.cfd req m).rets ∧ m'.out = (drv ctx.cfd req m).out ∧
    ((∃ e : Nat, (drv ctx.cfd req m).res = .fail e ∧ ret = -(e + 1 : Int) ∧ m'.olens = m.olens) ∨
     (∃ v, (drv ctx.cfd req m).res = .ok v ∧ ret = 0 ∧ m'.olens.length = m.olens.length ∧
        (∀ i < numchunks.toNat, ∃ c o, (drv ctx.cfd req m).chunkdlens[i]? = some c ∧ m'.olens[i]? = some o ∧
          o.toNat = c.toNat) ∧
        ∀ i, numchunks.toNat ≤ i → m'.olens[i]? = m.olens[i]?)) := by
  unfold devChunked at h
  split at h
  · cases h
  split at h
  · cases h
  split at h
  · cases h
  split at h
  · cases h
  split at h
  · cases h
  have hdl := hd (⟨ctx.ses, op, (istride * numchunks).truncate 32, (ostride * numchunks).truncate 32, inp, out,
        numchunks.truncate 32, (ilens.take numchunks.toNat).map lenTo32,
        (m.olens.take numchunks.toNat).map (BitVec.truncate 32)⟩)
    (by show ((m.olens.take numchunks.toNat).map _).length = _; rw [List.length_map, List.length_take]; omega)
  rcases convLens_spec ilens m.olens numchunks.toNat hi ho with ⟨_, e⟩ | ⟨_, e⟩
  · rw [e] at h
    simp only [Option.bind_eq_bind, Option.bind_some] at h
    split at h
    · rename_i e' he
      cases h
      exact ⟨rfl, rfl, .inl ⟨e', he, rfl, rfl⟩⟩
    · rename_i v hv
      rw [copyLens_spec _ _ _ hdl ho] at h
      cases h
      refine ⟨rfl, rfl, .inr ⟨v, hv, rfl, ?_, ?_, ?_⟩⟩
      · simp only [List.length_append, List.length_map, List.length_take, List.length_drop]
        omega
      · intro i hik
        generalize hreq : drv ctx.cfd _ m = d
        have hdl' : numchunks.toNat ≤ d.chunkdlens.length := by rw [← hreq]; exact hdl
        have ha : d.chunkdlens[i]? = some d.chunkdlens[i] := List.getElem?_eq_getElem (by omega)
        refine ⟨_, (d.chunkdlens[i]).zeroExtend 64, ha, ?_, ?_⟩
        · rw [List.getElem?_append_left (by rw [List.length_map, List.length_take]; omega), List.getElem?_map,
            List.getElem?_take_of_lt hik, ha]
          rfl
        · show ((d.chunkdlens[i]).setWidth 64).toNat = _
          rw [BitVec.toNat_setWidth, Nat.mod_eq_of_lt (by have := (d.chunkdlens[i]).isLt; omega)]
      · intro i hik
        generalize hreq : drv ctx.cfd _ m = d
        have hdl' : numchunks.toNat ≤ d.chunkdlens.length := by rw [← hreq]; exact hdl
        have hl : ((d.chunkdlens.take numchunks.toNat).map (BitVec.zeroExtend 64)).length = numchunks.toNat := by
          rw [List.length_map, List.length_take]; omega
        rw [List.getElem?_append_right (by omega), hl, List.getElem?_drop, Nat.add_sub_cancel' hik]
  · rw [e] at h; cases h

end

/-- C52: the functions for one chunk reject lengths that do not fit into 32 bits too, so that
nothing is truncated there either. -/
theorem C52_single (maxChunks : Nat) (hmax : maxChunks < 2 ^ 32) (drv : Nat → CryptOp → DevMem → DriverRes) (ctx : CtxDev)
    (op : BitVec 16) (inp ilen out : BitVec 64) (cret0 : Int) (buf : List Byte) (olen : BitVec 64)
    (hd : ∀ req m, req.chunkdlens.length = 1 → 1 ≤ (drv ctx.cfd req m).chunkdlens.length) {ret : Int} {req : CryptOp} {buf' : List Byte}
    {olen' : BitVec 64}
    (h : devCompress maxChunks drv ctx op inp ilen out cret0 buf olen = some (ret, some req, buf', olen')) :
    req.len.toNat = ilen.toNat ∧ req.dlen.toNat = olen.toNat ∧ req.numchunks.toNat = 1 ∧
    ∃ cl cdl, req.chunklens = [cl] ∧ req.chunkdlens = [cdl] ∧ cl.toNat = ilen.toNat ∧ cdl.toNat = olen.toNat ∧
    ∃ rc, (drv ctx.cfd req ⟨[cret0], buf, [olen]⟩).rets[0]? = some rc ∧
      ((∃ e : Nat, (drv ctx.cfd req ⟨[cret0], buf, [olen]⟩).res = .fail e ∧ ret = -(e + 1 : Int) ∧ olen' = olen) ∨
       (∃ v c, (drv ctx.cfd req ⟨[cret0], buf, [olen]⟩).res = .ok v ∧ ret = rc ∧
          (drv ctx.cfd req ⟨[cret0], buf, [olen]⟩).chunkdlens[0]? = some c ∧ olen'.toNat = c.toNat)) := by
  unfold devCompress at h
  cases hc : devChunked maxChunks drv ctx op 1 inp ilen [ilen] out olen ⟨[cret0], buf, [olen]⟩ with
  | none => rw [hc] at h; cases h
  | some p =>
    obtain ⟨ret1, req1, m1⟩ := p
    rw [hc] at h
    simp only [Option.bind_eq_bind, Option.bind_some] at h
    cases ho : m1.olens[0]? with
    | none => rw [ho] at h; cases h
    | some o =>
      cases hr : m1.rets[0]? with
      | none => rw [ho, hr] at h; cases h
      | some rc =>
        rw [ho, hr] at h
        cases h
        have h1 : (1 : BitVec 64).toNat = 1 := rfl
        have hfa := C52_request_faithful maxChunks drv ctx op 1 inp ilen [ilen] out olen ⟨[cret0], buf, [olen]⟩ hmax
          (Nat.le_refl _) (Nat.le_refl _) (fun req hr => hd req _ hr) hc
        have hre := C52_results maxChunks drv ctx op 1 inp ilen [ilen] out olen ⟨[cret0], buf, [olen]⟩
          (Nat.le_refl _) (Nat.le_refl _) (fun req hr => hd req _ hr) hc
        obtain ⟨-, -, -, -, f1, f2, f3, f4, f5, f6⟩ := hfa
        rw [h1] at f1 f2 f3 f4 f5 f6
        obtain ⟨il, ol, cl, cdl, g1, g2, g3, g4, g5, g6⟩ := f6 0 (by decide)
        cases g1; cases g2
        have e1 : req.chunklens = [cl] := by
          obtain ⟨x, hx⟩ := List.length_eq_one_iff.1 f4
          rw [hx] at g3 ⊢
          cases g3; rfl
        have e2 : req.chunkdlens = [cdl] := by
          obtain ⟨x, hx⟩ := List.length_eq_one_iff.1 f5
          rw [hx] at g4 ⊢
          cases g4; rfl
        refine ⟨by omega, by omega, f1, cl, cdl, e1, e2, ?_, g6, rc, ?_, ?_⟩
        · rcases g5 with ⟨g5, _⟩ | ⟨g5, _⟩
          · have := req.len.isLt
            omega
          · exact g5
        · rw [← hre.1]; exact hr
        · rcases hre.2.2 with ⟨e, q1, q2, q3⟩ | ⟨v, q1, q2, q3, q4, _⟩
          · left
            refine ⟨e, q1, ?_, ?_⟩
            · rw [if_pos (by rw [q2]; omega), q2]
            · rw [q3] at ho; cases ho; rfl
          · right
            obtain ⟨c, o', r1, r2, r3⟩ := q4 0 (by decide)
            rw [ho] at r2
            cases r2
            exact ⟨v, c, q1, by rw [if_neg (by rw [q2]; simp)], r1, r3⟩

/-- A driver that answers with what it was asked for. -/
def exDrv (_ : Nat) (req : CryptOp) (m : DevMem) : DriverRes := ⟨.ok 0, [0], m.out, req.chunkdlens⟩

/-- C52: accepted are lengths up to `2^32 - 2`, and the marker; rejected are `2^32 - 1` and `2^32`. -/
example :
    devChunked 128 exDrv ⟨3, 7, 0xfff⟩ 0 2 0x1000 (BitVec.ofNat 64 (2 ^ 31 - 1)) [BitVec.allOnes 64, 5] 0x2000 16
        ⟨[0, 0], [], [1, 2, 9]⟩ =
      some (0, some ⟨7, 0, 0xfffffffe, 32, 0x1000, 0x2000, 2, [0xffffffff, 5], [1, 2]⟩, ⟨[0], [], [1, 2, 9]⟩) ∧
    devChunked 128 exDrv ⟨3, 7, 0xfff⟩ 0 1 0x1000 0 [0xffffffff] 0x2000 16 ⟨[0], [], [1]⟩ = some (-22, none, ⟨[0], [], [1]⟩) ∧
    devChunked 128 exDrv ⟨3, 7, 0xfff⟩ 0 1 0x1000 0 [0xfffffffe] 0x2000 16 ⟨[0], [], [0x100000000]⟩ =
      some (-22, none, ⟨[0], [], [0x100000000]⟩) ∧
    devChunked 128 exDrv ⟨3, 7, 0xfff⟩ 0 1 0x1008 0 [4] 0x2000 16 ⟨[0], [], [1]⟩ = some (-22, none, ⟨[0], [], [1]⟩) := by
  decide +kernel

/-! ## C53 -/

/-- C53: when setting up a context fails, at whatever step, nothing stays open that was not open
before; otherwise exactly one descriptor and one session are added.  All calls are made on open
descriptors and sessions. -/
theorem C53_ctx_init (info : Bool) (junk : BitVec 16) (env : SysTr → Sys → Resp) (tr : SysTr) :
    ∃ r tr', ctxInit info junk env tr = some (r, tr') ∧ (SysOk tr → SysOk tr') ∧ openMem tr' = openMem tr ∧
      match r with
      | .error err => err < 0 ∧ openFds tr' = openFds tr ∧ openSessions tr' = openSessions tr
      | .ok ctx => openFds tr' = ctx.cfd :: openFds tr ∧ openSessions tr' = (ctx.cfd, ctx.ses) :: openSessions tr :=
  ctxInit_spec info junk env tr

/-- What threads do, one after the other: calls (each begins by getting the context of the thread)
and ending. -/
inductive DevRun (info : Bool) (env : SysTr → Sys → Resp) : DevState → SysTr → Prop
  | init : DevRun info env .init []
  | call {s s' : DevState} {tr tr' : SysTr} {junk : BitVec 16} {r : Except Int CtxDev} : DevRun info env s tr →
      getThreadCtx info junk s env tr = some ((r, s'), tr') → DevRun info env s' tr'
  | exit {s s' : DevState} {tr tr' : SysTr} : DevRun info env s tr →
      destroyThreadCtx s env tr = some (s', tr') → DevRun info env s' tr'

theorem devRun_inv {info : Bool} {env : SysTr → Sys → Resp} {s : DevState} {tr : SysTr} (h : DevRun info env s tr) :
    DevInv s tr ∧ s.keyValid = s.once := by
  induction h with
  | init => exact ⟨⟨trivial, rfl, rfl, rfl, rfl⟩, rfl⟩
  | @call s s' tr tr' junk r _ hc ih =>
    rcases getThreadCtx_spec info junk env ih.1 ih.2 with ⟨h1, _⟩ | ⟨_, r', s1, tr1, h1, h2, h3, h4, _⟩
    · rw [hc] at h1; cases h1
    · rw [hc] at h1
      cases h1
      exact ⟨h2, h4.trans h3.symm⟩
  | @exit s s' tr tr' _ hc ih =>
    obtain ⟨tr1, h1, h2⟩ := destroy_spec env ih.1
    rw [hc] at h1
    cases h1
    exact ⟨h2, ih.2⟩

/-- C53: at all times between calls, whatever has failed, a thread holds exactly what belongs to its
stored context: nothing, or one descriptor, one session and one piece of memory. -/
theorem C53_thread_holds {info : Bool} {env : SysTr → Sys → Resp} {s : DevState} {tr : SysTr}
    (h : DevRun info env s tr) :
    SysOk tr ∧
    ((s.slot = none ∧ openFds tr = [] ∧ openSessions tr = [] ∧ openMem tr = []) ∨
     ∃ p ctx, s.slot = some (p, ctx) ∧ openFds tr = [ctx.cfd] ∧ openSessions tr = [(ctx.cfd, ctx.ses)] ∧
       openMem tr = [p]) := by
  obtain ⟨hi, _⟩ := devRun_inv h
  refine ⟨hi.ok, ?_⟩
  have h1 := hi.fds
  have h2 := hi.ses
  have h3 := hi.mem
  cases hs : s.slot with
  | none => rw [hs] at h1 h2 h3; exact .inl ⟨rfl, h1, h2, h3⟩
  | some pc => rw [hs] at h1 h2 h3; exact .inr ⟨pc.1, pc.2, rfl, h1, h2, h3⟩

/-- C53: when the thread has ended nothing is left, whatever has failed. -/
theorem C53_thread_exit {info : Bool} {env : SysTr → Sys → Resp} {s : DevState} {tr : SysTr}
    (h : DevRun info env s tr) :
    ∃ s' tr', destroyThreadCtx s env tr = some (s', tr') ∧ SysOk tr' ∧ openFds tr' = [] ∧ openSessions tr' = [] ∧
      openMem tr' = [] := by
  obtain ⟨tr1, h1, h2⟩ := destroy_spec env (devRun_inv h).1
  exact ⟨_, tr1, h1, h2.ok, h2.fds, h2.ses, h2.mem⟩

/-- C53: a failed setup is reported; a successful one is used again by later calls, which make no
further system calls to set anything up. -/
theorem C53_reused {info : Bool} {env : SysTr → Sys → Resp} {s s' : DevState} {tr tr' : SysTr} {junk : BitVec 16}
    {r : Except Int CtxDev} (h : DevRun info env s tr) (hc : getThreadCtx info junk s env tr = some ((r, s'), tr')) :
    (∃ err, r = .error err ∧ err < 0 ∧ s'.slot = none) ∨
    (∃ ctx, r = .ok ctx ∧ ∀ junk', getThreadCtx info junk' s' env tr' = some ((.ok ctx, s'), tr')) := by
  obtain ⟨hi, hk⟩ := devRun_inv h
  rcases getThreadCtx_spec info junk env hi hk with ⟨h1, _⟩ | ⟨_, r', s1, tr1, h1, h2, h3, h4, h5⟩
  · rw [hc] at h1; cases h1
  · rw [hc] at h1
    cases h1
    cases r with
    | error err => exact .inl ⟨err, rfl, h5⟩
    | ok ctx =>
      obtain ⟨p, hp⟩ := h5
      refine .inr ⟨ctx, rfl, fun junk' => ?_⟩
      have : getThreadCtx info junk' s' env tr' = getThreadCtx' info junk' s' env tr' := by
        unfold getThreadCtx
        rw [h3]
        rfl
      rw [this]
      unfold getThreadCtx'
      rw [if_neg (by rw [h2.key]; simp), if_neg (by rw [h4]; simp), hp]
      rfl

/-- C53: the environment in which the third step of the setup fails, after the memory was allocated. -/
def exEnv (_ : SysTr) : Sys → Resp
  | .open => .ok 5
  | .gsession _ => .ok 9
  | .sessinfo _ _ => .fail 21
  | _ => .ok 0

example : (getThreadCtx true 0 .init exEnv []).map (fun p => (p.1.1.toOption, p.2)) =
    some (none, [(.free 0, .ok 0), (.close 5, .ok 0), (.fsession 5 9, .ok 0), (.sessinfo 5 9, .fail 21),
      (.gsession 5, .ok 9), (.setfd 5, .ok 0), (.open, .ok 5), (.malloc, .ok 0), (.tssCreate, .ok 0)]) := by decide +kernel

/-! ## C54 -/

/-- C54 is false: when `tss_create` fails, no error is reported; the key is used although it does not
exist, which is undefined behaviour, because `thread_ctx_key_err` is reset to 0 right after it is
set. -/
theorem C54_reports_key_failure_false (info : Bool) (junk : BitVec 16) (env : SysTr → Sys → Resp) (e : Nat)
    (h : env [] .tssCreate = .fail e) : getThreadCtx info junk .init env [] = none := by
  rcases getThreadCtx_spec info junk env (s := .init) (tr := []) ⟨trivial, rfl, rfl, rfl, rfl⟩ rfl with
    ⟨h1, _⟩ | ⟨h1 | ⟨v, h1⟩, _⟩
  · exact h1
  · cases h1
  · rw [h] at h1; cases h1

/-- C54, what does hold: if the key can be created, the call returns the context or an error in
every thread and whatever else fails.  Missing: a failure to create the key. -/
theorem C54_partial {info : Bool} {env : SysTr → Sys → Resp} {s : DevState} {tr : SysTr} (h : DevRun info env s tr)
    (hk : ∀ tr e, env tr .tssCreate ≠ .fail e) (junk : BitVec 16) :
    ∃ r s' tr', getThreadCtx info junk s env tr = some ((r, s'), tr') ∧
      match r with
      | .error err => err < 0
      | .ok ctx => (ctx.cfd, ctx.ses) ∈ openSessions tr' ∧ ctx.cfd ∈ openFds tr' := by
  obtain ⟨hi, hv⟩ := devRun_inv h
  rcases getThreadCtx_spec info junk env hi hv with ⟨_, _, e, h1⟩ | ⟨_, r, s', tr', h1, h2, _, _, h3⟩
  · exact absurd h1 (hk tr e)
  · refine ⟨r, s', tr', h1, ?_⟩
    cases r with
    | error err => exact h3.1
    | ok ctx =>
      obtain ⟨p, hp⟩ := h3
      have e1 := h2.fds
      have e2 := h2.ses
      rw [hp] at e1 e2
      exact ⟨by rw [e2]; exact List.mem_cons_self, by rw [e1]; exact List.mem_cons_self⟩

/-- C54: the environments of both theorems. -/
example : (∃ env : SysTr → Sys → Resp, env [] .tssCreate = .fail 11) ∧ ∀ tr e, exEnv tr .tssCreate ≠ .fail e :=
  ⟨⟨fun _ _ => .fail 11, rfl⟩, fun _ _ h => by cases h⟩

/-! ## C58 -/

/-- C58: the alignment test accepts exactly the multiples of the required alignment, which is
`alignmask + 1`, for the masks the kernel uses. -/
theorem C58_alignment_iff {ptr : BitVec 64} {mask : BitVec 16} {k : Nat} (hm : mask.toNat + 1 = 2 ^ k) :
    isPointerAligned ptr mask = true ↔ ptr.toNat % (mask.toNat + 1) = 0 := by
  have hk : k ≤ 16 := by
    rcases Nat.lt_or_ge 16 k with h | h
    case inr => exact h
    have : 2 ^ 17 ≤ 2 ^ k := Nat.pow_le_pow_right (by decide) (by omega)
    have := mask.isLt
    omega
  rw [hm]
  exact aligned_iff (by omega) hk

/-- C58: buffers that are aligned as `required_alignment` says are not rejected for their alignment,
also if that value was computed when the device was not available. -/
theorem C58_required_alignment {info : Bool} {env : SysTr → Sys → Resp} {s s' : DevState} {tr tr' : SysTr}
    {junk : BitVec 16} {al : Nat} (h : requiredAlignment info junk s env tr = some ((al, s'), tr'))
    {ctx : CtxDev} (hctx : s'.slot = none ∨ ∃ p, s'.slot = some (p, ctx)) (hr : DevRun info env s tr)
    {k : Nat} (hm : ctx.alignmask.toNat + 1 = 2 ^ k) {ptr : BitVec 64} (hp : ptr.toNat % al = 0) :
    isPointerAligned ptr ctx.alignmask = true := by
  obtain ⟨hi, hv⟩ := devRun_inv hr
  rw [C58_alignment_iff hm]
  have hk : k ≤ 16 := by
    rcases Nat.lt_or_ge 16 k with hx | hx
    case inr => exact hx
    have : 2 ^ 17 ≤ 2 ^ k := Nat.pow_le_pow_right (by decide) (by omega)
    have := ctx.alignmask.isLt
    omega
  rcases getThreadCtx_spec info junk env hi hv with ⟨h1, _⟩ | ⟨_, r, s1, tr1, h1, h2, _, _, h3⟩
  · simp only [requiredAlignment, bind, SysM.bind, h1] at h
    cases h
  · simp only [requiredAlignment, bind, SysM.bind, h1] at h
    cases r with
    | error err =>
      cases h
      rw [hm]
      exact Nat.mod_eq_zero_of_dvd (Nat.dvd_trans (Nat.pow_dvd_pow 2 hk) (Nat.dvd_of_mod_eq_zero hp))
    | ok ctx' =>
      cases h
      obtain ⟨p', hp'⟩ := h3
      rcases hctx with hc | ⟨p, hc⟩
      · rw [hp'] at hc; cases hc
      · rw [hp'] at hc
        cases hc
        exact hp

example : isPointerAligned 0x7000 0xfff = true ∧ isPointerAligned 0x7010 0xfff = false ∧
    isPointerAligned (BitVec.ofNat 64 (2 ^ 64 - 1)) 0x1 = false ∧ (0xfff : BitVec 16).toNat + 1 = 2 ^ 12 := by decide

end Lib842.Props
