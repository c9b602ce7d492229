import Verif.Model.HwCalls
import Verif.Props.Cryptodev
import Verif.Props.Impl
/-!
# C114: data exchanged between hardware and software
-/

namespace Lib842.Props
open Spec

/-- Memory holds `k` chunks `xs 0`, `xs 1`, … at distance `stride`; their lengths are in `lens`. -/
def Holds (k stride : Nat) (mem : List Byte) (lens : List Nat) (xs : Nat → List Byte) : Prop :=
  ∀ i < k, lens[i]? = some (xs i).length ∧ i * stride + (xs i).length ≤ mem.length ∧ (mem.drop (i * stride)).take (xs i).length = xs i

/-- Memory holds `k` streams of the hardware format, for the chunks `xs 0`, `xs 1`, …. -/
def HoldsStreams (k stride : Nat) (mem : List Byte) (lens : List Nat) (xs : Nat → List Byte) : Prop :=
  ∀ i < k, ∃ n, lens[i]? = some n ∧ n ≠ 2 ^ 64 - 1 ∧ i * stride + n ≤ mem.length ∧ HwDecodes ((mem.drop (i * stride)).take n) (xs i)

/-- All lengths are multiples of 8 bytes. -/
def Whole (k : Nat) (lens : List Nat) : Prop := ∀ i < k, ∀ n, lens[i]? = some n → n % 8 = 0

/-- Room for `k` chunks at distance `stride`, at least `need i` for chunk `i` -/
def Room (k stride : Nat) (mem : List Byte) (lens : List Nat) (need : Nat → Nat) : Prop :=
  ∀ i < k, ∃ ol, lens[i]? = some ol ∧ need i ≤ ol ∧ ol ≤ stride ∧ i * stride + ol ≤ mem.length

/-- What is expected of the device as a compressor of the data `mem` at the address `src`: if it reports success for a chunk, the output is a stream of the
hardware format for the chunk.  The distance of the chunks is the length divided by their number. -/
def DriverCompresses (drv : Nat → CryptOp → DevMem → DriverRes) (src : BitVec 64) (mem : List Byte) : Prop :=
  (∀ cfd req m, (drv cfd req m).chunkdlens.length = req.chunkdlens.length ∧ (drv cfd req m).out.length = m.out.length) ∧
  ∀ cfd req m, req.op = 0 → req.src = src → ∀ v, (drv cfd req m).res = .ok v → ∀ i < req.numchunks.toNat, ∀ il ol, req.chunklens[i]? = some il → il.toNat ≠ 2 ^ 32 - 1 →
      req.chunkdlens[i]? = some ol → ol.toNat ≤ req.dlen.toNat / req.numchunks.toNat →
      i * (req.len.toNat / req.numchunks.toNat) + il.toNat ≤ mem.length → i * (req.dlen.toNat / req.numchunks.toNat) + ol.toNat ≤ m.out.length →
      (drv cfd req m).rets[i]? = some 0 →
      ∃ n, (drv cfd req m).chunkdlens[i]? = some n ∧ n.toNat ≤ ol.toNat ∧
        HwDecodes (((drv cfd req m).out.drop (i * (req.dlen.toNat / req.numchunks.toNat))).take n.toNat)
          ((mem.drop (i * (req.len.toNat / req.numchunks.toNat))).take il.toNat)

/-- What is expected of the device as a decompressor of the streams `mem` at the address `src`: if it accepts the request, every chunk that holds a stream of
the hardware format and has enough room is decompressed. -/
def DriverDecompresses (drv : Nat → CryptOp → DevMem → DriverRes) (src : BitVec 64) (mem : List Byte) : Prop :=
  (∀ cfd req m, (drv cfd req m).chunkdlens.length = req.chunkdlens.length ∧ (drv cfd req m).out.length = m.out.length) ∧
  ∀ cfd req m, req.op = 1 → req.src = src → ∀ v, (drv cfd req m).res = .ok v → ∀ i < req.numchunks.toNat, ∀ il ol d, req.chunklens[i]? = some il → il.toNat ≠ 2 ^ 32 - 1 →
      req.chunkdlens[i]? = some ol → ol.toNat ≤ req.dlen.toNat / req.numchunks.toNat →
      i * (req.len.toNat / req.numchunks.toNat) + il.toNat ≤ mem.length → i * (req.dlen.toNat / req.numchunks.toNat) + ol.toNat ≤ m.out.length →
      HwDecodes ((mem.drop (i * (req.len.toNat / req.numchunks.toNat))).take il.toNat) d → d.length ≤ ol.toNat →
      (drv cfd req m).rets[i]? = some 0 ∧ (∃ n, (drv cfd req m).chunkdlens[i]? = some n ∧ n.toNat = d.length) ∧
      ((drv cfd req m).out.drop (i * (req.dlen.toNat / req.numchunks.toNat))).take d.length = d

/-! ## Helper lemmas -/

theorem getThreadCtx_error {info : Bool} {junk : BitVec 16} {s s' : DevState} {env : SysTr → Sys → Resp} {tr tr' : SysTr} {err : Int}
    (h : getThreadCtx info junk s env tr = some ((.error err, s'), tr')) : err ≠ 0 := by
  have key : ∀ (s : DevState) (tr : SysTr), getThreadCtx' info junk s env tr = some ((.error err, s'), tr') → err ≠ 0 := by
    intro s tr h
    unfold getThreadCtx' at h
    split at h
    · rename_i hk
      cases h
      exact hk
    split at h
    · cases h
    cases hs : s.slot with
    | some pc => rw [hs] at h; cases h
    | none =>
      rw [hs] at h
      simp only [bind, SysM.bind, SysM.call] at h
      cases h1 : env tr .malloc with
      | fail e =>
        rw [h1] at h
        cases h
        decide
      | ok p =>
        rw [h1] at h
        simp only [SysM.bind] at h
        obtain ⟨r, tr2, e1, _, _, e4⟩ := ctxInit_spec info junk env ((Sys.malloc, Resp.ok p) :: tr)
        rw [e1] at h
        cases r with
        | error err' =>
          simp only [SysM.bind, SysM.call] at h e4
          cases h
          omega
        | ok ctx =>
          simp only [SysM.bind, SysM.call] at h
          cases h4 : env tr2 (.tssSet p) with
          | ok v => rw [h4] at h; cases h
          | fail e =>
            rw [h4] at h
            simp only [SysM.bind, SysM.call] at h
            obtain ⟨err2, tr3, d1, _⟩ := ctxDeinit_spec ctx env ((.tssSet p, .fail e) :: tr2)
            rw [d1] at h
            cases h
            decide
  unfold getThreadCtx at h
  simp only [bind, SysM.bind] at h
  split at h
  · exact key _ _ h
  · simp only [SysM.bind] at h
    split at h
    · cases h
    · exact key _ _ h

theorem devChunked_none {maxChunks : Nat} {drv : Nat → CryptOp → DevMem → DriverRes} {ctx : CtxDev} {op : BitVec 16} {numchunks inp istride : BitVec 64}
    {ilens : List (BitVec 64)} {out ostride : BitVec 64} {m m' : DevMem} {ret : Int}
    (h : devChunked maxChunks drv ctx op numchunks inp istride ilens out ostride m = some (ret, none, m')) : ret = -22 ∧ m' = m := by
  unfold devChunked at h
  split at h
  · cases h; exact ⟨rfl, rfl⟩
  split at h
  · cases h; exact ⟨rfl, rfl⟩
  split at h
  · cases h; exact ⟨rfl, rfl⟩
  split at h
  · cases h; exact ⟨rfl, rfl⟩
  split at h
  · cases h; exact ⟨rfl, rfl⟩
  cases hc : convLens ilens m.olens numchunks.toNat with
  | none => rw [hc] at h; cases h
  | some o =>
    rw [hc] at h
    simp only [Option.bind_eq_bind, Option.bind_some] at h
    cases o with
    | none => cases h; exact ⟨rfl, rfl⟩
    | some p =>
      simp only at h
      split at h
      · cases h
      · cases hd : copyLens (drv ctx.cfd _ m).chunkdlens numchunks.toNat m.olens with
        | none => rw [hd] at h; cases h
        | some l => rw [hd] at h; cases h

theorem hwCompress_dev {info : Bool} {junk : BitVec 16} {s s' : DevState} {maxChunks : Nat} {drv : Nat → CryptOp → DevMem → DriverRes}
    {numchunks inp istride : BitVec 64} {ilens : List (BitVec 64)} {out ostride : BitVec 64} {m m' : DevMem} {env : SysTr → Sys → Resp} {tr tr' : SysTr} {ret : Int}
    (h : hw842CompressChunked info junk s maxChunks drv numchunks inp istride ilens out ostride m env tr = some ((ret, m', s'), tr')) :
    (ret ≠ 0 ∧ m' = m) ∨ ∃ ctx req, devChunked maxChunks drv ctx 0 numchunks inp istride ilens out ostride m = some (ret, some req, m') := by
  unfold hw842CompressChunked at h
  simp only [bind, SysM.bind] at h
  split at h
  · cases h
  · rename_i r tr1 hg
    obtain ⟨r, s1⟩ := r
    cases r with
    | error err =>
      cases h
      exact .inl ⟨getThreadCtx_error hg, rfl⟩
    | ok ctx =>
      cases hd : devChunked maxChunks drv ctx copEncrypt numchunks inp istride ilens out ostride m with
      | none => simp only [hd] at h; cases h
      | some p =>
        obtain ⟨ret', req', m1⟩ := p
        simp only [hd] at h
        cases h
        cases req' with
        | none =>
          obtain ⟨h1, h2⟩ := devChunked_none hd
          exact .inl ⟨by rw [h1]; decide, h2⟩
        | some req => exact .inr ⟨ctx, req, hd⟩

theorem hwDecompress_dev {info : Bool} {junk : BitVec 16} {s s' : DevState} {maxChunks : Nat} {drv : Nat → CryptOp → DevMem → DriverRes}
    {numchunks inp istride : BitVec 64} {ilens : List (BitVec 64)} {out ostride : BitVec 64} {m m' : DevMem} {env : SysTr → Sys → Resp} {tr tr' : SysTr} {ret : Int}
    (h : hw842DecompressChunked info junk s maxChunks drv numchunks inp istride ilens out ostride m env tr = some ((ret, m', s'), tr')) :
    (ret ≠ 0 ∧ m' = m) ∨ ∃ ctx req, devChunked maxChunks drv ctx 1 numchunks inp istride ilens out ostride m = some (ret, some req, m') := by
  unfold hw842DecompressChunked at h
  simp only [bind, SysM.bind] at h
  split at h
  · cases h
  · rename_i r tr1 hg
    obtain ⟨r, s1⟩ := r
    cases r with
    | error err =>
      cases h
      exact .inl ⟨getThreadCtx_error hg, rfl⟩
    | ok ctx =>
      cases hd : devChunked maxChunks drv ctx copDecrypt numchunks inp istride ilens out ostride m with
      | none => simp only [hd] at h; cases h
      | some p =>
        obtain ⟨ret', req', m1⟩ := p
        simp only [hd] at h
        cases h
        cases req' with
        | none =>
          obtain ⟨h1, h2⟩ := devChunked_none hd
          exact .inl ⟨by rw [h1]; decide, h2⟩
        | some req => exact .inr ⟨ctx, req, hd⟩

theorem stride_div {a k i : Nat} (h : i < k) : a * k / k = a := Nat.mul_div_cancel _ (by omega)

theorem toNats_get {l : List (BitVec 64)} {i n : Nat} : (l.map BitVec.toNat)[i]? = some n ↔ ∃ v, l[i]? = some v ∧ v.toNat = n := by
  rw [List.getElem?_map]
  cases l[i]? with
  | none => simp
  | some v => simp

theorem holds_le {k stride : Nat} {mem : List Byte} {lens : List (BitVec 64)} {xs : Nat → List Byte}
    (h : Holds k stride mem (lens.map BitVec.toNat) xs) : k ≤ lens.length := by
  by_cases hk : k = 0
  · omega
  · obtain ⟨v, hv, _⟩ := toNats_get.1 (h (k - 1) (by omega)).1
    have := (List.getElem?_eq_some_iff.1 hv).1
    omega

theorem compressed_le {k stride : Nat} {mem : List Byte} {lens : List (BitVec 64)} {xs : Nat → List Byte}
    (h : HoldsStreams k stride mem (lens.map BitVec.toNat) xs) : k ≤ lens.length := by
  by_cases hk : k = 0
  · omega
  · obtain ⟨_, hv', _⟩ := h (k - 1) (by omega)
    obtain ⟨v, hv, _⟩ := toNats_get.1 hv'
    have := (List.getElem?_eq_some_iff.1 hv).1
    omega

theorem room_le {k stride : Nat} {mem : List Byte} {lens : List (BitVec 64)} {need : Nat → Nat}
    (h : Room k stride mem (lens.map BitVec.toNat) need) : k ≤ lens.length := by
  by_cases hk : k = 0
  · omega
  · obtain ⟨_, hv', _⟩ := h (k - 1) (by omega)
    obtain ⟨v, hv, _⟩ := toNats_get.1 hv'
    have := (List.getElem?_eq_some_iff.1 hv).1
    omega

/-! ## The hardware -/

section
variable {info : Bool} {junk : BitVec 16} {s s' : DevState} {maxChunks : Nat} {drv : Nat → CryptOp → DevMem → DriverRes}
  {numchunks inp istride : BitVec 64} {ilens : List (BitVec 64)} {out ostride : BitVec 64} {m m' : DevMem} {env : SysTr → Sys → Resp} {tr tr' : SysTr}

theorem dev_compresses {ctx : CtxDev} {req : CryptOp} (hmax : maxChunks < 2 ^ 32) (mem : List Byte) (xs : Nat → List Byte) (hdrv : DriverCompresses drv inp mem)
    (hin : Holds numchunks.toNat istride.toNat mem (ilens.map BitVec.toNat) xs) (hl : ∀ i < numchunks.toNat, (xs i).length ≠ 2 ^ 64 - 1)
    (hroom : Room numchunks.toNat ostride.toNat m.out (m.olens.map BitVec.toNat) (fun _ => 0))
    (hdev : devChunked maxChunks drv ctx 0 numchunks inp istride ilens out ostride m = some (0, some req, m'))
    (hok : ∀ i < numchunks.toNat, m'.rets[i]? = some 0) :
    HoldsStreams numchunks.toNat ostride.toNat m'.out (m'.olens.map BitVec.toNat) xs ∧ m'.out.length = m.out.length ∧ ∀ i < numchunks.toNat, (xs i).length < 2 ^ 32 - 1 := by
  have hi := holds_le hin
  have ho := room_le hroom
  have hd : ∀ r, r.chunkdlens.length = numchunks.toNat → numchunks.toNat ≤ (drv ctx.cfd r m).chunkdlens.length := by
    intro r hr
    rw [(hdrv.1 ctx.cfd r m).1, hr]
  obtain ⟨f1, f2, f3, f4, f5, f6, f7, f8, f9, f10⟩ := C52_request_faithful maxChunks drv ctx 0 numchunks inp istride ilens out ostride m hmax hi ho hd hdev
  obtain ⟨g1, g2, g3⟩ := C52_results maxChunks drv ctx 0 numchunks inp istride ilens out ostride m hi ho hd hdev
  rcases g3 with ⟨e, _, ge, _⟩ | ⟨v, gv, _, glen, g4, _⟩
  · exact absurd ge (by omega)
  have hstr : ∀ i < numchunks.toNat, req.len.toNat / req.numchunks.toNat = istride.toNat ∧ req.dlen.toNat / req.numchunks.toNat = ostride.toNat := by
    intro i hi'
    rw [f5, f6, f7]
    exact ⟨stride_div hi', stride_div hi'⟩
  refine ⟨?_, by rw [g2]; exact (hdrv.1 _ _ _).2, ?_⟩
  · intro i hi'
    obtain ⟨i1, i2, i3⟩ := hin i hi'
    obtain ⟨a, ha, ha'⟩ := toNats_get.1 i1
    obtain ⟨ol, r1, _, r2, r3⟩ := hroom i hi'
    obtain ⟨b, hb, rfl⟩ := toNats_get.1 r1
    obtain ⟨il, ol, cl, cdl, q1, q2, q3, q4, q5, q6⟩ := f10 i hi'
    rw [ha] at q1; rw [hb] at q2
    cases q1; cases q2
    have q5' : cl.toNat = a.toNat ∧ cl.toNat ≠ 2 ^ 32 - 1 := by
      rcases q5 with ⟨q5, _⟩ | q5
      · exact absurd (ha'.symm.trans q5) (hl i hi')
      · exact q5
    obtain ⟨s1, s2⟩ := hstr i hi'
    have hr := hok i hi'
    rw [g1] at hr
    obtain ⟨n, n1, n2, n3⟩ := hdrv.2 ctx.cfd req m f2 f3 v gv i (by omega) cl cdl q3 q5'.2 q4 (by rw [s2]; omega) (by rw [s1]; omega) (by rw [s2]; omega) hr
    rw [s1, s2, q5'.1, ha', i3] at n3
    obtain ⟨c, o, j1, j2, j3⟩ := g4 i hi'
    rw [n1] at j1
    cases j1
    have hn := n.isLt
    refine ⟨n.toNat, toNats_get.2 ⟨o, j2, j3⟩, by omega, ?_, by rw [g2]; exact n3⟩
    rw [g2, (hdrv.1 _ _ _).2]
    omega
  · intro i hi'
    obtain ⟨a, ha, ha'⟩ := toNats_get.1 (hin i hi').1
    obtain ⟨il, ol, cl, cdl, q1, q2, q3, q4, q5, q6⟩ := f10 i hi'
    rw [ha] at q1
    cases q1
    have := hl i hi'
    have := cl.isLt
    omega

theorem dev_decompresses {ctx : CtxDev} {req : CryptOp} (hmax : maxChunks < 2 ^ 32) (mem : List Byte) (xs : Nat → List Byte) (hdrv : DriverDecompresses drv inp mem)
    (hin : HoldsStreams numchunks.toNat istride.toNat mem (ilens.map BitVec.toNat) xs)
    (hroom : Room numchunks.toNat ostride.toNat m.out (m.olens.map BitVec.toNat) (fun i => (xs i).length))
    (hdev : devChunked maxChunks drv ctx 1 numchunks inp istride ilens out ostride m = some (0, some req, m')) :
    Holds numchunks.toNat ostride.toNat m'.out (m'.olens.map BitVec.toNat) xs ∧ (∀ i < numchunks.toNat, m'.rets[i]? = some 0) ∧ m'.out.length = m.out.length := by
  have hi := compressed_le hin
  have ho := room_le hroom
  have hd : ∀ r, r.chunkdlens.length = numchunks.toNat → numchunks.toNat ≤ (drv ctx.cfd r m).chunkdlens.length := by
    intro r hr
    rw [(hdrv.1 ctx.cfd r m).1, hr]
  obtain ⟨f1, f2, f3, f4, f5, f6, f7, f8, f9, f10⟩ := C52_request_faithful maxChunks drv ctx 1 numchunks inp istride ilens out ostride m hmax hi ho hd hdev
  obtain ⟨g1, g2, g3⟩ := C52_results maxChunks drv ctx 1 numchunks inp istride ilens out ostride m hi ho hd hdev
  rcases g3 with ⟨e, _, ge, _⟩ | ⟨v, gv, _, glen, g4, _⟩
  · exact absurd ge (by omega)
  have hlen : m'.out.length = m.out.length := by rw [g2]; exact (hdrv.1 _ _ _).2
  have key : ∀ i < numchunks.toNat, m'.rets[i]? = some 0 ∧ (m'.olens.map BitVec.toNat)[i]? = some (xs i).length ∧
      (m'.out.drop (i * ostride.toNat)).take (xs i).length = xs i := by
    intro i hi'
    have s1 : req.len.toNat / req.numchunks.toNat = istride.toNat := by rw [f5, f6]; exact stride_div hi'
    have s2 : req.dlen.toNat / req.numchunks.toNat = ostride.toNat := by rw [f5, f7]; exact stride_div hi'
    obtain ⟨n, i1, i2, i3, i4⟩ := hin i hi'
    obtain ⟨a, ha, rfl⟩ := toNats_get.1 i1
    obtain ⟨ol, r1, r2, r3, r4⟩ := hroom i hi'
    dsimp only at r2
    obtain ⟨b, hb, rfl⟩ := toNats_get.1 r1
    obtain ⟨il, ol, cl, cdl, q1, q2, q3, q4, q5, q6⟩ := f10 i hi'
    rw [ha] at q1; rw [hb] at q2
    cases q1; cases q2
    have q5' : cl.toNat = a.toNat ∧ cl.toNat ≠ 2 ^ 32 - 1 := by
      rcases q5 with ⟨q5, _⟩ | q5
      · exact absurd q5 i2
      · exact q5
    obtain ⟨n1, ⟨n, n2, n3⟩, n4⟩ := hdrv.2 ctx.cfd req m f2 f3 v gv i (by omega) cl cdl (xs i) q3 q5'.2 q4 (by rw [s2]; omega) (by rw [s1]; omega)
      (by rw [s2]; omega) (by rw [s1, q5'.1]; exact i4) (by omega)
    rw [s2] at n4
    obtain ⟨c, o, j1, j2, j3⟩ := g4 i hi'
    rw [n2] at j1
    cases j1
    exact ⟨by rw [g1]; exact n1, toNats_get.2 ⟨o, j2, by omega⟩, by rw [g2]; exact n4⟩
  refine ⟨fun i hi' => ⟨(key i hi').2.1, ?_, (key i hi').2.2⟩, fun i hi' => (key i hi').1, hlen⟩
  obtain ⟨ol, r1, r2, r3, r4⟩ := hroom i hi'
  dsimp only at r2
  rw [hlen]
  omega

/-- C114: what `hw842_compress_chunked` hands out as a success are streams of the hardware format for the chunks of the caller, whatever the number
of chunks, strides and lengths; so the translation of the request does not confuse anything. -/
theorem C114_hw_compresses (hmax : maxChunks < 2 ^ 32) (mem : List Byte) (xs : Nat → List Byte) (hdrv : DriverCompresses drv inp mem)
    (hin : Holds numchunks.toNat istride.toNat mem (ilens.map BitVec.toNat) xs) (hl : ∀ i < numchunks.toNat, (xs i).length ≠ 2 ^ 64 - 1)
    (hroom : Room numchunks.toNat ostride.toNat m.out (m.olens.map BitVec.toNat) (fun _ => 0))
    (h : hw842CompressChunked info junk s maxChunks drv numchunks inp istride ilens out ostride m env tr = some ((0, m', s'), tr'))
    (hok : ∀ i < numchunks.toNat, m'.rets[i]? = some 0) :
    HoldsStreams numchunks.toNat ostride.toNat m'.out (m'.olens.map BitVec.toNat) xs ∧ m'.out.length = m.out.length ∧ ∀ i < numchunks.toNat, (xs i).length < 2 ^ 32 - 1 := by
  rcases hwCompress_dev h with ⟨h0, _⟩ | ⟨ctx, req, hdev⟩
  · exact absurd rfl h0
  · exact dev_compresses hmax mem xs hdrv hin hl hroom hdev hok

/-- C114: streams of the hardware format, wherever they come from, are restored by `hw842_decompress_chunked` if it returns 0: all chunks are reported as
good. -/
theorem C114_hw_decompresses (hmax : maxChunks < 2 ^ 32) (mem : List Byte) (xs : Nat → List Byte) (hdrv : DriverDecompresses drv inp mem)
    (hin : HoldsStreams numchunks.toNat istride.toNat mem (ilens.map BitVec.toNat) xs)
    (hroom : Room numchunks.toNat ostride.toNat m.out (m.olens.map BitVec.toNat) (fun i => (xs i).length))
    (h : hw842DecompressChunked info junk s maxChunks drv numchunks inp istride ilens out ostride m env tr = some ((0, m', s'), tr')) :
    Holds numchunks.toNat ostride.toNat m'.out (m'.olens.map BitVec.toNat) xs ∧ (∀ i < numchunks.toNat, m'.rets[i]? = some 0) ∧ m'.out.length = m.out.length := by
  rcases hwDecompress_dev h with ⟨h0, _⟩ | ⟨ctx, req, hdev⟩
  · exact absurd rfl h0
  · exact dev_decompresses hmax mem xs hdrv hin hroom hdev

/-- C114: whatever the driver does, `*olens` is left alone by a call of the hardware that does not return 0. -/
theorem C114_hw_error {ret : Int} (hi : numchunks.toNat ≤ ilens.length) (ho : numchunks.toNat ≤ m.olens.length)
    (hd : ∀ cfd req m, (drv cfd req m).chunkdlens.length = req.chunkdlens.length) (hne : ret ≠ 0)
    (h : hw842CompressChunked info junk s maxChunks drv numchunks inp istride ilens out ostride m env tr = some ((ret, m', s'), tr') ∨
      hw842DecompressChunked info junk s maxChunks drv numchunks inp istride ilens out ostride m env tr = some ((ret, m', s'), tr')) :
    m'.olens = m.olens := by
  have key : ∀ ctx op req, devChunked maxChunks drv ctx op numchunks inp istride ilens out ostride m = some (ret, some req, m') → m'.olens = m.olens := by
    intro ctx op req hdev
    obtain ⟨_, _, ⟨_, _, _, h1⟩ | ⟨_, _, h1, _⟩⟩ := C52_results maxChunks drv ctx op numchunks inp istride ilens out ostride m hi ho
      (fun r hr => by rw [hd, hr]) hdev
    · exact h1
    · exact absurd h1 hne
  rcases h with h | h
  · rcases hwCompress_dev h with ⟨_, rfl⟩ | ⟨ctx, req, hdev⟩
    · rfl
    · exact key _ _ _ hdev
  · rcases hwDecompress_dev h with ⟨_, rfl⟩ | ⟨ctx, req, hdev⟩
    · rfl
    · exact key _ _ _ hdev

theorem devCompress_chunked {maxChunks : Nat} {drv : Nat → CryptOp → DevMem → DriverRes} {ctx : CtxDev} {op : BitVec 16} {inp ilen out : BitVec 64} {cret0 : Int}
    {buf buf' : List Byte} {olen olen' : BitVec 64} {req : Option CryptOp}
    (h : devCompress maxChunks drv ctx op inp ilen out cret0 buf olen = some (0, req, buf', olen')) :
    ∃ r m', devChunked maxChunks drv ctx op 1 inp ilen [ilen] out olen ⟨[cret0], buf, [olen]⟩ = some (0, some r, m') ∧ m'.rets[0]? = some 0 ∧
      m'.out = buf' ∧ m'.olens[0]? = some olen' := by
  unfold devCompress at h
  cases hc : devChunked maxChunks drv ctx op 1 inp ilen [ilen] out olen ⟨[cret0], buf, [olen]⟩ with
  | none => rw [hc] at h; cases h
  | some p =>
    obtain ⟨ret1, req1, m1⟩ := p
    rw [hc] at h
    simp only [Option.bind_eq_bind, Option.bind_some] at h
    cases ho : m1.olens[0]? with
    | none => rw [ho] at h; cases h
    | some o =>
      cases hr : m1.rets[0]? with
      | none => rw [ho, hr] at h; cases h
      | some rc =>
        rw [ho, hr] at h
        simp only [Option.bind_some, Option.some.injEq, Prod.mk.injEq] at h
        obtain ⟨h1, h2, h3, h4⟩ := h
        have hz : ret1 = 0 := by
          by_cases hz : ret1 = 0
          · exact hz
          · rw [if_pos hz] at h1; exact h1
        subst hz
        rw [if_neg (by simp)] at h1
        cases req1 with
        | none => exact absurd (devChunked_none hc).1 (by decide)
        | some r => exact ⟨r, m1, rfl, by rw [← h1]; exact hr, h3, by rw [← h4]; exact ho⟩

/-- C114: a stream handed out by `hw842_compress` as a success is one for the data. -/
theorem C114_hw_compress {ilen olen olen' : BitVec 64} {cret0 : Int} {buf buf' : List Byte} (hmax : maxChunks < 2 ^ 32) (mem : List Byte)
    (hdrv : DriverCompresses drv inp mem) (hin : ilen.toNat ≤ mem.length) (hroom : olen.toNat ≤ buf.length)
    (h : hw842Compress info junk s maxChunks drv inp ilen out cret0 buf olen env tr = some ((0, buf', olen', s'), tr')) :
    HwDecodes (buf'.take olen'.toNat) (mem.take ilen.toNat) ∧ olen'.toNat ≤ buf'.length ∧ buf'.length = buf.length := by
  unfold hw842Compress at h
  simp only [bind, SysM.bind] at h
  split at h
  · cases h
  rename_i r tr1 hg
  obtain ⟨r, s1⟩ := r
  cases r with
  | error err =>
    cases h
    exact absurd rfl (getThreadCtx_error hg)
  | ok ctx =>
    cases hd : devCompress maxChunks drv ctx copEncrypt inp ilen out cret0 buf olen with
    | none => simp only [hd] at h; cases h
    | some p =>
      obtain ⟨ret', req', b1, o1⟩ := p
      simp only [hd] at h
      cases h
      obtain ⟨r, m', e1, e2, e3, e4⟩ := devCompress_chunked hd
      have h1 : (1 : BitVec 64).toNat = 1 := rfl
      have hfa := C52_request_faithful maxChunks drv ctx 0 1 inp ilen [ilen] out olen ⟨[cret0], buf, [olen]⟩ hmax (Nat.le_refl _) (Nat.le_refl _)
        (fun r hr => by rw [(hdrv.1 ctx.cfd r _).1, hr]) e1
      have hlen : ilen.toNat < 2 ^ 32 := by
        have hq := hfa.2.2.2.2.2.1
        rw [h1, Nat.mul_one] at hq
        have := r.len.isLt
        omega
      have hx : (mem.take ilen.toNat).length = ilen.toNat := by rw [List.length_take]; omega
      obtain ⟨c1, c2, _⟩ := dev_compresses hmax mem (fun _ => mem.take ilen.toNat) hdrv (ilens := [ilen]) (istride := ilen) (ostride := olen)
        (by
          intro i hi
          obtain rfl : i = 0 := by omega
          rw [Nat.zero_mul, hx]
          exact ⟨rfl, by omega, rfl⟩) (by intro i hi; rw [hx]; omega)
        (by
          intro i hi
          obtain rfl : i = 0 := by omega
          exact ⟨olen.toNat, rfl, Nat.zero_le _, Nat.le_refl _, by simpa using hroom⟩) e1
        (by
          intro i hi
          obtain rfl : i = 0 := by omega
          exact e2)
      obtain ⟨n, n1, _, n2, n3⟩ := c1 0 (by decide)
      obtain ⟨v, v1, v2⟩ := toNats_get.1 n1
      rw [e4] at v1
      cases v1
      rw [e3] at n2 n3 c2
      rw [Nat.zero_mul] at n2 n3
      rw [v2]
      exact ⟨n3, by omega, c2⟩

/-- C114: a stream of the hardware format, wherever it comes from, is restored by `hw842_decompress` if it returns 0. -/
theorem C114_hw_decompress {ilen olen olen' : BitVec 64} {cret0 : Int} {buf buf' : List Byte} (hmax : maxChunks < 2 ^ 32) (mem x : List Byte)
    (hdrv : DriverDecompresses drv inp mem) (hin : ilen.toNat ≤ mem.length) (hx : HwDecodes (mem.take ilen.toNat) x) (hcap : x.length ≤ olen.toNat)
    (hroom : olen.toNat ≤ buf.length)
    (h : hw842Decompress info junk s maxChunks drv inp ilen out cret0 buf olen env tr = some ((0, buf', olen', s'), tr')) :
    olen'.toNat = x.length ∧ buf'.take x.length = x ∧ buf'.length = buf.length := by
  unfold hw842Decompress at h
  simp only [bind, SysM.bind] at h
  split at h
  · cases h
  rename_i r tr1 hg
  obtain ⟨r, s1⟩ := r
  cases r with
  | error err =>
    cases h
    exact absurd rfl (getThreadCtx_error hg)
  | ok ctx =>
    cases hd : devCompress maxChunks drv ctx copDecrypt inp ilen out cret0 buf olen with
    | none => simp only [hd] at h; cases h
    | some p =>
      obtain ⟨ret', req', b1, o1⟩ := p
      simp only [hd] at h
      cases h
      obtain ⟨r, m', e1, e2, e3, e4⟩ := devCompress_chunked hd
      have h1 : (1 : BitVec 64).toNat = 1 := rfl
      have hfa := C52_request_faithful maxChunks drv ctx 1 1 inp ilen [ilen] out olen ⟨[cret0], buf, [olen]⟩ hmax (Nat.le_refl _) (Nat.le_refl _)
        (fun r hr => by rw [(hdrv.1 ctx.cfd r _).1, hr]) e1
      have hlen : ilen.toNat < 2 ^ 32 := by
        have hq := hfa.2.2.2.2.2.1
        rw [h1, Nat.mul_one] at hq
        have := r.len.isLt
        omega
      obtain ⟨c1, _, c2⟩ := dev_decompresses hmax mem (fun _ => x) hdrv (ilens := [ilen]) (istride := ilen) (ostride := olen)
        (by
          intro i hi
          obtain rfl : i = 0 := by omega
          rw [Nat.zero_mul]
          exact ⟨ilen.toNat, rfl, by omega, by omega, hx⟩)
        (by
          intro i hi
          obtain rfl : i = 0 := by omega
          exact ⟨olen.toNat, rfl, hcap, Nat.le_refl _, by simpa using hroom⟩) e1
      obtain ⟨n1, _, n3⟩ := c1 0 (by decide)
      obtain ⟨v, v1, v2⟩ := toNats_get.1 n1
      rw [e4] at v1
      cases v1
      rw [e3] at n3 c2
      rw [Nat.zero_mul] at n3
      exact ⟨v2, n3, c2⟩

end

/-! ## The software -/

/-- C114: the same for the chunked compressors of the two software implementations; the lengths are multiples of 8. -/
theorem C114_software_compresses (e : Endian) (oj : OptJunk) (j : CompJunk) (A : ImplTable) (hA : A = swImpl e j ∨ A = optImpl e oj j)
    (ain aout k istride ostride : Nat) (mem : List Byte) (ilens : List Nat) (xs : Nat → List Byte) (s s1 : ChState) (rc : Option Errno)
    (hn : k < 2 ^ 32) (hi : (k - 1) * istride < 2 ^ 32) (ho : (k - 1) * ostride < 2 ^ 32) (hr : k ≤ s.rets.length)
    (hin : Holds k istride mem ilens xs) (h8 : ∀ i < k, (xs i).length % 8 = 0) (hroom : Room k ostride s.out s.olens (fun _ => 0))
    (h : A.compressChunked ain aout k istride ostride mem ilens s = .ok rc s1) (hok : ∀ i < k, s1.rets[i]? = some none) :
    HoldsStreams k ostride s1.out s1.olens xs ∧ Whole k s1.olens ∧ s1.out.length = s.out.length := by
  have hp := C113_software_pairs e e oj oj j j A A hA hA
  rw [hp.1.1, C29_chunked_partial _ (hp.2.2.comp_size ain aout) k istride ostride mem ilens s s1 rc hn hr hi ho] at h
  obtain ⟨_, hs⟩ := h
  have hlen := (C31_writes_only_regions _ (hp.2.2.comp_size ain aout) _ _ _ _ _ _ _ hs).1
  have hiso := C31_isolation _ (hp.2.2.comp_size ain aout) _ _ _ _ _ _ _ hs hr (by
    intro i hi' i' hi'' hne ol ol' h1 h2 _ _
    obtain ⟨o, k1, _, k2, _⟩ := hroom i hi'
    obtain ⟨o', k1', _, k2', _⟩ := hroom i' hi''
    rw [h1] at k1; rw [h2] at k1'
    cases k1; cases k1'
    rcases Nat.lt_or_gt_of_ne hne with hlt | hlt
    · exact .inl (stride_disjoint hlt k2)
    · exact .inr (stride_disjoint hlt k2'))
  have key : ∀ i < k, ∃ n, s1.olens[i]? = some n ∧ n % 8 = 0 ∧ i * ostride + n ≤ s1.out.length ∧
      HwDecodes ((s1.out.drop (i * ostride)).take n) (xs i) := by
    intro i hi'
    obtain ⟨ol, k1, _, k2, k3⟩ := hroom i hi'
    obtain ⟨i1, i2, i3⟩ := hin i hi'
    have h8' := h8 i hi'
    obtain ⟨rc', n, b, j1, j2, j3, j4⟩ := (hiso i hi').2 (xs i).length ol i1 (by omega) k1
    rw [hok i hi'] at j2
    cases j2
    rw [i3] at j1
    have hnle := hp.2.2.fits _ _ _ _ _ _ _ _ j1
    have hpad : n % 8 = 0 ∧ HwDecodes (b.take n) (xs i) := by
      rcases hA with rfl | rfl
      · have j1' : sw842Compress e (ain + i * istride) j (xs i) ((s.out.drop (i * ostride)).take ol) = .ret none n b := j1
        refine ⟨?_, C26_sw_hw_compatible _ _ _ _ _ _ _ j1' h8'⟩
        rw [(sw842Compress_ok j1').1]
        unfold paddedSize
        omega
      · have j1' : optsw842Compress e (ain + i * istride) (aout + i * ostride) oj j (xs i) ((s.out.drop (i * ostride)).take ol) = .ret none n b := j1
        refine ⟨?_, (C26_opt_hw_compatible _ _ _ _ _ _ _ _ _ j1').2⟩
        rw [(optsw842Compress_ok j1').2.2.1]
        unfold paddedSize
        omega
    simp only [List.length_take, List.length_drop] at hnle
    refine ⟨n, j3, hpad.1, by omega, ?_⟩
    have : (s1.out.drop (i * ostride)).take n = b.take n := by rw [← j4, List.take_take, Nat.min_eq_left (by omega)]
    rw [this]
    exact hpad.2
  refine ⟨fun i hi' => ?_, fun i hi' n hn' => ?_, hlen⟩
  · obtain ⟨n, h1, h2, h3, h4⟩ := key i hi'
    exact ⟨n, h1, by omega, h3, h4⟩
  · obtain ⟨n', h1, h2, _⟩ := key i hi'
    rw [hn'] at h1
    cases h1
    exact h2

/-- C114: streams of the hardware format, wherever they come from, are restored by the chunked decompressors of the software (by the optimized one if the
lengths are multiples of 8). -/
theorem C114_software_decompresses (e : Endian) (oj : OptJunk) (j : CompJunk) (B : ImplTable) (bin bout k istride ostride : Nat) (mem : List Byte)
    (ilens : List Nat) (hB : B = swImpl e j ∨ (B = optImpl e oj j ∧ Whole k ilens)) (xs : Nat → List Byte) (t : ChState)
    (hn : k < 2 ^ 32) (hi : (k - 1) * istride < 2 ^ 32) (ho : (k - 1) * ostride < 2 ^ 32) (hr : k ≤ t.rets.length)
    (hin : HoldsStreams k istride mem ilens xs) (hl : ∀ i < k, (xs i).length < 2 ^ 32) (hroom : Room k ostride t.out t.olens (fun i => (xs i).length)) :
    ∃ t1, B.decompressChunked bin bout k istride ostride mem ilens t = .ok none t1 ∧ Holds k ostride t1.out t1.olens xs ∧
      (∀ i < k, t1.rets[i]? = some none) ∧ t1.out.length = t.out.length := by
  have hp : ImplChunked B ∧ ∀ ain aout, KeepsSize (B.decompress ain aout) := by
    have := C113_software_pairs e e oj oj j j B B (hB.imp id And.left) (hB.imp id And.left)
    exact ⟨this.1, this.2.2.decomp_size⟩
  have hk := hp.2 bin bout
  have hdec : ∀ i < k, ∀ n, ilens[i]? = some n → ∀ so d buf, i * istride + n ≤ mem.length → HwDecodes ((mem.drop (i * istride)).take n) (xs i) →
      (xs i).length ≤ buf.length → ∃ b, B.decompress bin bout so d ((mem.drop (i * istride)).take n) buf = .ret none (xs i).length b ∧
        b.take (xs i).length = xs i := by
    intro i hi' n hn' so d buf hm hx hcap
    have hl' := hl i hi'
    rcases hB with rfl | ⟨rfl, hw⟩
    · exact (C13_sw_accepts_exactly_format e (bout + d) _ buf (xs i)).2 ⟨hx.decodes, hcap, by omega⟩
    · obtain ⟨b, h1, h2, _⟩ := optDecompress_hw e (ain := bin + so) (aout := bout + d) ((mem.drop (i * istride)).take n) buf
        (by rw [List.length_take, List.length_drop, Nat.min_eq_left (by omega)]; exact hw i hi' n hn') hx hcap
        (by unfold OptLim; omega)
      exact ⟨b, h1, h2⟩
  have hstep : ∀ q, q ≤ k → ∃ t1, Successive (B.decompress bin bout) mem ilens (fun i => i * istride) (fun i => i * ostride) q t t1 := by
    intro q
    induction q with
    | zero => intro _; exact ⟨t, .zero⟩
    | succ q ih =>
      intro hq
      obtain ⟨t1, h1⟩ := ih (by omega)
      obtain ⟨n, c1, c2, c3, c4⟩ := hin q (by omega)
      obtain ⟨ol, r1, r2, r3, r4⟩ := hroom q (by omega)
      dsimp only at r2
      have hlen1 := (C31_writes_only_regions _ hk _ _ _ _ _ _ _ h1).1
      have hol' := (h1.later q (Nat.le_refl _)).2.trans r1
      obtain ⟨b, e1, e2⟩ := hdec q (by omega) n c1 (q * istride) (q * ostride) ((t1.out.drop (q * ostride)).take ol) c3 c4
        (by simp only [List.length_take, List.length_drop]; omega)
      exact ⟨_, .succ h1 (.call c1 c2 c3 hol' (by omega) e1)⟩
  obtain ⟨t1, ht⟩ := hstep k (Nat.le_refl _)
  have hlen := (C31_writes_only_regions _ hk _ _ _ _ _ _ _ ht).1
  have hiso := C31_isolation _ hk _ _ _ _ _ _ _ ht hr (by
    intro i hi' i' hi'' hne ol ol' h1 h2 _ _
    obtain ⟨o, k1, _, k2, _⟩ := hroom i hi'
    obtain ⟨o', k1', _, k2', _⟩ := hroom i' hi''
    rw [h1] at k1; rw [h2] at k1'
    cases k1; cases k1'
    rcases Nat.lt_or_gt_of_ne hne with hlt | hlt
    · exact .inl (stride_disjoint hlt k2)
    · exact .inr (stride_disjoint hlt k2'))
  have key : ∀ i < k, t1.rets[i]? = some none ∧ t1.olens[i]? = some (xs i).length ∧ i * ostride + (xs i).length ≤ t1.out.length ∧
      (t1.out.drop (i * ostride)).take (xs i).length = xs i := by
    intro i hi'
    obtain ⟨n, c1, c2, c3, c4⟩ := hin i hi'
    obtain ⟨ol, r1, r2, r3, r4⟩ := hroom i hi'
    dsimp only at r2
    obtain ⟨rc', m, b, j1, j2, j3, j4⟩ := (hiso i hi').2 n ol c1 c2 r1
    obtain ⟨b', e1, e2⟩ := hdec i hi' n c1 (i * istride) (i * ostride) ((t.out.drop (i * ostride)).take ol) c3 c4
      (by simp only [List.length_take, List.length_drop]; omega)
    rw [e1] at j1
    simp only [Call.ret.injEq] at j1
    obtain ⟨rfl, rfl, rfl⟩ := j1
    refine ⟨j2, j3, by omega, ?_⟩
    rw [← j4, List.take_take, Nat.min_eq_left (by omega)] at e2
    exact e2
  refine ⟨t1, ?_, fun i hi' => (key i hi').2, fun i hi' => (key i hi').1, hlen⟩
  rw [hp.1.2, C29_chunked_partial _ hk k istride ostride _ _ t t1 none hn hr hi ho]
  exact ⟨rfl, ht⟩

/-! ## Exchange -/

/-- C114: compressed by the hardware, decompressed by software. -/
theorem C114_hw_then_software {info : Bool} {junk : BitVec 16} {s s' : DevState} {maxChunks : Nat} (hmax : maxChunks < 2 ^ 32)
    {drv : Nat → CryptOp → DevMem → DriverRes} {numchunks inp istride : BitVec 64} {ilens : List (BitVec 64)} {out ostride : BitVec 64} {m m' : DevMem}
    {env : SysTr → Sys → Resp} {tr tr' : SysTr} (mem : List Byte) (xs : Nat → List Byte) (hdrv : DriverCompresses drv inp mem)
    (hin : Holds numchunks.toNat istride.toNat mem (ilens.map BitVec.toNat) xs) (hl : ∀ i < numchunks.toNat, (xs i).length ≠ 2 ^ 64 - 1)
    (hroom : Room numchunks.toNat ostride.toNat m.out (m.olens.map BitVec.toNat) (fun _ => 0))
    (h : hw842CompressChunked info junk s maxChunks drv numchunks inp istride ilens out ostride m env tr = some ((0, m', s'), tr'))
    (hok : ∀ i < numchunks.toNat, m'.rets[i]? = some 0)
    (e : Endian) (oj : OptJunk) (j : CompJunk) (B : ImplTable) (hB : B = swImpl e j ∨ (B = optImpl e oj j ∧ Whole numchunks.toNat (m'.olens.map BitVec.toNat)))
    (bin bout dstride : Nat) (t : ChState) (hn : numchunks.toNat < 2 ^ 32) (ho : (numchunks.toNat - 1) * ostride.toNat < 2 ^ 32)
    (hd : (numchunks.toNat - 1) * dstride < 2 ^ 32) (hr : numchunks.toNat ≤ t.rets.length)
    (hroom' : Room numchunks.toNat dstride t.out t.olens (fun i => (xs i).length)) :
    ∃ t1, B.decompressChunked bin bout numchunks.toNat ostride.toNat dstride m'.out (m'.olens.map BitVec.toNat) t = .ok none t1 ∧
      Holds numchunks.toNat dstride t1.out t1.olens xs ∧ (∀ i < numchunks.toNat, t1.rets[i]? = some none) ∧ t1.out.length = t.out.length := by
  obtain ⟨h1, _, h2⟩ := C114_hw_compresses hmax mem xs hdrv hin hl hroom h hok
  exact C114_software_decompresses e oj j B bin bout _ _ _ _ _ hB xs t hn ho hd hr h1 (fun i hi => by have := h2 i hi; omega) hroom'

/-- C114: compressed by software, decompressed by the hardware.  `ilens` are the lengths the software has reported. -/
theorem C114_software_then_hw (e : Endian) (oj : OptJunk) (j : CompJunk) (A : ImplTable) (hA : A = swImpl e j ∨ A = optImpl e oj j)
    (ain aout istride : Nat) (mem : List Byte) (lens : List Nat) (xs : Nat → List Byte) (c c1 : ChState) (rc : Option Errno)
    {info : Bool} {junk : BitVec 16} {s s' : DevState} {maxChunks : Nat} (hmax : maxChunks < 2 ^ 32)
    {drv : Nat → CryptOp → DevMem → DriverRes} {numchunks inp ostride : BitVec 64} {ilens : List (BitVec 64)} {out dstride : BitVec 64} {m m' : DevMem}
    {env : SysTr → Sys → Resp} {tr tr' : SysTr} (hn : numchunks.toNat < 2 ^ 32) (hi : (numchunks.toNat - 1) * istride < 2 ^ 32)
    (ho : (numchunks.toNat - 1) * ostride.toNat < 2 ^ 32) (hr : numchunks.toNat ≤ c.rets.length)
    (hin : Holds numchunks.toNat istride mem lens xs) (h8 : ∀ i < numchunks.toNat, (xs i).length % 8 = 0)
    (hroom : Room numchunks.toNat ostride.toNat c.out c.olens (fun _ => 0))
    (hc : A.compressChunked ain aout numchunks.toNat istride ostride.toNat mem lens c = .ok rc c1) (hok : ∀ i < numchunks.toNat, c1.rets[i]? = some none)
    (hlens : ilens.map BitVec.toNat = c1.olens) (hdrv : DriverDecompresses drv inp c1.out)
    (hroom' : Room numchunks.toNat dstride.toNat m.out (m.olens.map BitVec.toNat) (fun i => (xs i).length))
    (h : hw842DecompressChunked info junk s maxChunks drv numchunks inp ostride ilens out dstride m env tr = some ((0, m', s'), tr')) :
    Holds numchunks.toNat dstride.toNat m'.out (m'.olens.map BitVec.toNat) xs ∧ (∀ i < numchunks.toNat, m'.rets[i]? = some 0) ∧ m'.out.length = m.out.length := by
  obtain ⟨h1, _⟩ := C114_software_compresses e oj j A hA ain aout _ istride _ mem lens xs c c1 rc hn hi ho hr hin h8 hroom hc hok
  exact C114_hw_decompresses hmax c1.out xs hdrv (by rw [hlens]; exact h1) hroom' h

/-- C114: compressed and decompressed by the hardware, with the output of the one call as input of the other. -/
theorem C114_hw_then_hw {info : Bool} {junk junk' : BitVec 16} {s s' s'' : DevState} {maxChunks : Nat} (hmax : maxChunks < 2 ^ 32)
    {drv : Nat → CryptOp → DevMem → DriverRes} {numchunks inp istride : BitVec 64} {ilens : List (BitVec 64)} {out ostride dst dstride : BitVec 64}
    {m m' t t' : DevMem} {env env' : SysTr → Sys → Resp} {tr tr' tr1 tr1' : SysTr} (mem : List Byte) (xs : Nat → List Byte)
    (hdrv : DriverCompresses drv inp mem) (hdrv' : DriverDecompresses drv out m'.out)
    (hin : Holds numchunks.toNat istride.toNat mem (ilens.map BitVec.toNat) xs) (hl : ∀ i < numchunks.toNat, (xs i).length ≠ 2 ^ 64 - 1)
    (hroom : Room numchunks.toNat ostride.toNat m.out (m.olens.map BitVec.toNat) (fun _ => 0))
    (h : hw842CompressChunked info junk s maxChunks drv numchunks inp istride ilens out ostride m env tr = some ((0, m', s'), tr'))
    (hok : ∀ i < numchunks.toNat, m'.rets[i]? = some 0)
    (hroom' : Room numchunks.toNat dstride.toNat t.out (t.olens.map BitVec.toNat) (fun i => (xs i).length))
    (h' : hw842DecompressChunked info junk' s' maxChunks drv numchunks out ostride m'.olens dst dstride t env' tr1 = some ((0, t', s''), tr1')) :
    Holds numchunks.toNat dstride.toNat t'.out (t'.olens.map BitVec.toNat) xs ∧ (∀ i < numchunks.toNat, t'.rets[i]? = some 0) ∧ t'.out.length = t.out.length :=
  C114_hw_decompresses hmax m'.out xs hdrv' (C114_hw_compresses hmax mem xs hdrv hin hl hroom h hok).1 hroom' h'

/-! ## A device that meets the expectations -/

/-- A device for single chunks in software: compression of `mem` -/
def exDevice (mem : List Byte) (_ : Nat) (req : CryptOp) (m : DevMem) : DriverRes :=
  match req.op.toNat, req.numchunks.toNat, req.chunklens, req.chunkdlens with
  | 0, 1, [il], [ol] =>
    if il.toNat % 8 = 0 ∧ ol.toNat ≤ m.out.length then
      match sw842Compress .big 0 junk0 (mem.take il.toNat) (m.out.take ol.toNat) with
      | .ret none n b => ⟨.ok 0, [0], b ++ m.out.drop ol.toNat, [BitVec.ofNat 32 n]⟩
      | _ => ⟨.ok 0, [-28], m.out, [ol]⟩
    else ⟨.fail 21, m.rets, m.out, req.chunkdlens⟩
  | 1, 1, [il], [ol] =>
    if ol.toNat ≤ m.out.length then
      match sw842Decompress .big 0 (mem.take il.toNat) (m.out.take ol.toNat) with
      | .ret none n b => ⟨.ok 0, [0], b ++ m.out.drop ol.toNat, [BitVec.ofNat 32 n]⟩
      | _ => ⟨.ok 0, [-22], m.out, [ol]⟩
    else ⟨.fail 21, m.rets, m.out, req.chunkdlens⟩
  | _, _, _, _ => ⟨.fail 21, m.rets, m.out, req.chunkdlens⟩

theorem exDevice_keeps (mem : List Byte) (cfd : Nat) (req : CryptOp) (m : DevMem) :
    (exDevice mem cfd req m).chunkdlens.length = req.chunkdlens.length ∧ (exDevice mem cfd req m).out.length = m.out.length := by
  have ks := C29_functions_keep_size .big 0 0 ojunk0 junk0
  unfold exDevice
  split
  · rename_i il ol _ _ _ hc
    split
    · rename_i hol
      split
      · rename_i n b hx
        have := ks.1 0 0 _ _ _ _ _ hx
        rw [List.length_take, Nat.min_eq_left (by omega)] at this
        refine ⟨by rw [hc]; rfl, ?_⟩
        show (b ++ _).length = _
        rw [List.length_append, List.length_drop]
        omega
      · simp [hc]
    · exact ⟨rfl, rfl⟩
  · rename_i il ol _ _ _ hc
    split
    · rename_i hol
      split
      · rename_i n b hx
        have := ks.2.1 0 0 _ _ _ _ _ hx
        rw [List.length_take, Nat.min_eq_left (by omega)] at this
        refine ⟨by rw [hc]; rfl, ?_⟩
        show (b ++ _).length = _
        rw [List.length_append, List.length_drop]
        omega
      · simp [hc]
    · exact ⟨rfl, rfl⟩
  · exact ⟨rfl, rfl⟩

theorem exDevice_compresses (mem : List Byte) (src : BitVec 64) : DriverCompresses (exDevice mem) src mem := by
  refine ⟨exDevice_keeps mem, ?_⟩
  intro cfd req m hop _ v hv i hi il ol hil _ hol hle hin hout hr
  unfold exDevice at hv hr ⊢
  rw [hop] at hv hr ⊢
  revert hv hr
  split
  · rename_i il' ol' h0 hk h1 h2
    rw [hk] at hi
    obtain rfl : i = 0 := by omega
    rw [h1] at hil; rw [h2] at hol
    cases hil; cases hol
    split
    · rename_i hc
      split
      · rename_i n b hx
        intro _ _
        have hb := sw842Compress_ok hx
        simp only [List.length_take] at hb
        have hn : (BitVec.ofNat 32 n).toNat = n := by rw [BitVec.toNat_ofNat, Nat.mod_eq_of_lt (by omega)]
        refine ⟨_, rfl, by omega, ?_⟩
        simp only [Nat.zero_mul, List.drop_zero, hn]
        rw [List.take_append_of_le_length (by omega)]
        exact C26_sw_hw_compatible _ _ _ _ _ _ _ hx (by rw [List.length_take]; omega)
      · intro _ hr
        simp at hr
    · intro hv
      cases hv
  · rename_i h0 _ _ _
    exact absurd h0 (by decide)
  · intro hv
    cases hv

theorem exDevice_decompresses (mem : List Byte) (src : BitVec 64) : DriverDecompresses (exDevice mem) src mem := by
  refine ⟨exDevice_keeps mem, ?_⟩
  intro cfd req m hop _ v hv i hi il ol d hil _ hol hle hin hout hd hcap
  unfold exDevice at hv ⊢
  rw [hop] at hv ⊢
  revert hv
  split
  · rename_i h0 _ _ _
    exact absurd h0 (by decide)
  · rename_i il' ol' h0 hk h1 h2
    rw [hk] at hi
    obtain rfl : i = 0 := by omega
    rw [h1] at hil; rw [h2] at hol
    cases hil; cases hol
    simp only [Nat.zero_mul, Nat.zero_add, List.drop_zero] at hout hd ⊢
    rw [if_pos hout]
    · have hlt := ol.isLt
      obtain ⟨b, e1, e2⟩ := (C13_sw_accepts_exactly_format .big 0 (mem.take il.toNat) (m.out.take ol.toNat) d).2
        ⟨hd.decodes, by rw [List.length_take]; omega, by omega⟩
      have hb := (C29_functions_keep_size .big 0 0 ojunk0 junk0).2.1 0 0 _ _ _ _ _ e1
      simp only [List.length_take] at hb
      rw [e1]
      intro _
      refine ⟨rfl, ⟨_, rfl, ?_⟩, ?_⟩
      · rw [BitVec.toNat_ofNat, Nat.mod_eq_of_lt (by omega)]
      · show (b ++ _).take d.length = d
        rw [List.take_append_of_le_length (by omega)]
        exact e2
  · intro hv
    cases hv

-- The device compresses a chunk, and the software and the device restore it; the data meet the hypotheses.
example : (match hw842CompressChunked true 0 DevState.init 16 (exDevice [1, 2, 3, 4, 5, 6, 7, 8]) 1 0x1000 8 [8] 0x2000 24
      ⟨[-1], List.replicate 24 0, [24]⟩ (fun _ _ => .ok 3) [] with
    | some ((0, m', s'), tr') => m'.rets == [0] && m'.olens == [16] &&
      sw842Decompress .little 0 (m'.out.take 16) (List.replicate 8 0) == .ret none 8 [1, 2, 3, 4, 5, 6, 7, 8] &&
      (match hw842DecompressChunked true 0 s' 16 (exDevice m'.out) 1 0x2000 24 m'.olens 0x3000 8 ⟨[-1], List.replicate 8 0, [8]⟩ (fun _ _ => .ok 3) tr' with
      | some ((0, t, _), _) => t.rets == [0] && t.olens == [8] && t.out == [1, 2, 3, 4, 5, 6, 7, 8]
      | _ => false)
    | _ => false) = true := by decide +kernel

example : Holds 1 8 [1, 2, 3, 4, 5, 6, 7, 8] [8] (fun _ => [1, 2, 3, 4, 5, 6, 7, 8]) ∧ Room 1 24 (List.replicate 24 0) [24] (fun _ => 0) ∧
    DriverCompresses (exDevice [1, 2, 3, 4, 5, 6, 7, 8]) 0x1000 [1, 2, 3, 4, 5, 6, 7, 8] := by
  refine ⟨?_, ?_, exDevice_compresses _ _⟩
  · intro i hi
    obtain rfl : i = 0 := by omega
    decide
  · intro i hi
    obtain rfl : i = 0 := by omega
    exact ⟨24, by decide⟩

end Lib842.Props
