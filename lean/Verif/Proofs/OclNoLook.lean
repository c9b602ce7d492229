import Verif.Proofs.OclConfig
/-!
# The OpenCL kernel without look-ahead buffer, also in place

`fill` puts the look-ahead buffer back into a state; one iteration without look-ahead buffer is then
compared with one of the kernel as it is (`iter_sim`), as long as all words that have not been used
are still there.
-/

namespace Lib842
namespace OclConfig
open Spec

/-- The state with the look-ahead buffer. -/
def fill (G : OclG) (p : OclP) : OclP :=
  { p with la := [G.wordAt p.word, G.wordAt (p.word + 1), G.wordAt (p.word + 2), G.wordAt (p.word + 3),
      G.wordAt (p.word + 4), G.wordAt (p.word + 5)] }

/-- The kernel without look-ahead buffer. -/
def nolook (G : OclG) : Dec OclP where
  WInv p := p.la = [] ∧ G.WInv (fill G p)
  Fut p := ∀ j, p.word ≤ j → 8 * j < G.ilen →
    (load64 G.e p.input (8 * (G.ioff + j))).map (swapBe64 G.e) = some (G.wordAt j)
  Keep p := G.src ≠ none ∨ 8 * p.out ≤ 8 * (G.ioff + p.word) ∨ G.ilen ≤ 8 * p.word
  rest := G.dec.rest
  outp := G.dec.outp
  cap := G.dec.cap
  U := G.dec.U
  E := G.dec.E

/-- `G.wordAt` are the words of the input at the start. -/
def Start (G : OclG) : Prop :=
  ∀ j, 8 * j < G.ilen →
    (load64 G.e (G.src.getD G.buf0) (8 * (G.ioff + j))).map (swapBe64 G.e) = some (G.wordAt j)

theorem fill_fut {G : OclG} {p : OclP} (h : (nolook G).Fut p) : G.Fut (fill G p) :=
  fun j hj hi => h j (by have : (fill G p).word = p.word := rfl; omega) hi

theorem fill_fetch {G : OclG} {p : OclP} (h : (nolook G).Inv p) (k : Nat) :
    oclFetch G.e k (fill G p) = some (G.wordAt (p.word + k)) := by
  have hi : (fill G p).ilen = G.ilen := h.1.2.ilen
  unfold oclFetch
  by_cases hk : ((fill G p).word + k) * 8 < (fill G p).ilen
  · rw [if_pos hk]
    have h1 := h.2 (p.word + k) (by omega) (by rw [← hi]; have : (fill G p).word = p.word := rfl; omega)
    rw [h.1.2.ioff, Nat.add_assoc]
    exact h1
  · rw [if_neg hk]
    unfold OclG.wordAt
    rw [if_neg (by rw [← hi]; have : (fill G p).word = p.word := rfl; omega)]

theorem fill_rd {G : OclG} {p : OclP} (h : (nolook G).Inv p) : Rd G.e G.src (fill G p) := by
  have hs : (fill G p).src = G.src := h.1.2.src
  refine ⟨by rw [hs], ⟨_, _, _, _, _, _, rfl, fill_fetch h 0, fill_fetch h 1, fill_fetch h 2, fill_fetch h 3,
    fill_fetch h 4, fill_fetch h 5⟩, ?_⟩
  intro j _
  have : (bare G.src (fill G p)).input = (fill G p).input := by
    show Option.getD G.src p.buf = Option.getD (fill G p).src p.buf
    rw [hs]
  rw [this]

theorem bare_fill {G : OclG} {p : OclP} (h : (nolook G).WInv p) : bare G.src (fill G p) = p := by
  have hs : p.src = G.src := h.2.src
  have hl := h.1
  unfold bare fill
  cases p
  simp only at hs hl ⊢
  rw [hs, hl]

theorem fill_bare {G : OclG} {p : OclP} (h : G.WInv p) : fill G (bare G.src p) = p := by
  have hs := h.src
  have hl := h.la
  unfold bare fill
  cases p
  simp only at hs hl ⊢
  rw [hs, hl]

theorem bare_winv {G : OclG} {p : OclP} (h : G.WInv p) : (nolook G).WInv (bare G.src p) :=
  ⟨rfl, by rw [fill_bare h]; exact h⟩

/-- One iteration without look-ahead buffer where the iteration with it succeeds; its errors otherwise. -/
def both (G : OclG) (er c : Bool) : M OclP Bool := fun p =>
  match oclIter G.e (fill G p) with
  | .ok _ _ => oclIterC ⟨er, false, c⟩ G.e p
  | .err er q => .err er (bare G.src q)
  | .ub => .ub
  | .timeout => .timeout

/-- The words used do not decrease. -/
theorem word_le {G : OclG} {p q : OclP} (hp : G.WInv p) (hq : G.WInv q)
    (h : (G.dec.rest q).length ≤ (G.dec.rest p).length) : p.word ≤ q.word := by
  have hl : ∀ r, G.WInv r → (G.dec.rest r).length = r.bits + (64 * (G.ilen / 8) - 64 * r.word) ∧ r.bits < 64 := by
    intro r hr
    refine ⟨?_, ?_⟩
    · show (winBits _ _ ++ (bytesBits G.bytes).drop _).length = _
      simp [G.length_bytes]; omega
    · obtain ⟨a, ha⟩ := hr.win
      exact ha.1
  have h1 := hl p hp
  have h2 := hl q hq
  have := hp.word
  have := hq.word
  omega

theorem both_ok (G : OclG) (hG : Start G) (er c : Bool) : (nolook G).Ok (both G er c) where
  fits p hp := (oclIter_ok G).fits (fill G p) hp.2
  step p hp := by
    have hst := oclIter_step hp.1.2 (fill_fut hp.2)
    have hsim := (iter_sim (er := er) (s := G.src) (e := G.e) c).run _ (fill_rd hp)
    rw [bare_fill hp.1] at hsim
    have hin : ∀ q : OclP, (bare G.src q).input = Option.getD G.src q.buf := fun _ => rfl
    unfold both
    generalize oclIter G.e (fill G p) = x at hst hsim
    cases hst with
    | @fin p' hw hfu ho hr =>
      simp only
      rw [hsim.1]
      refine .fin (bare_winv hw) ?_ ho hr
      have hle : (G.dec.rest p').length ≤ (G.dec.rest (fill G p)).length := by rw [hr]; simp
      have hwd := word_le hp.1.2 hw hle
      have hlo : 8 * p'.out = 8 * p.out := by
        have h1 : (G.dec.outp p').length = 8 * p'.out := hw.length_outp
        have h2 : (G.dec.outp (fill G p)).length = 8 * p.out := hp.1.2.length_outp
        rw [ho] at h1
        omega
      have hbuf : p'.buf = p.buf := by
        have h1 : p'.buf.take (8 * p'.out) = p.buf.take (8 * p.out) := ho
        have h2 := hw.frame
        have h3 : p.buf.drop (8 * p.out) = G.buf0.drop (8 * p.out) := hp.1.2.frame
        rw [hlo] at h1 h2
        rw [← List.take_append_drop (8 * p.out) p'.buf, h1, h2, ← h3, List.take_append_drop]
      intro j hj hi
      have hj' : p.word ≤ j := Nat.le_trans hwd hj
      have h1 := hp.2 j hj' hi
      rw [hin, hbuf]
      have h2 : p.input = Option.getD G.src p.buf := by
        show Option.getD p.src p.buf = _
        rw [show p.src = G.src from hp.1.2.src]
      rw [h2] at h1
      exact h1
    | @op p' op hw hfu hv hsh hr hop =>
      simp only
      rw [hsim.1]
      refine .op (op := op) (bare_winv hw) ?_ hv hsh hr hop
      intro hk j hj hi
      rw [hin]
      have h0 := hG j hi
      have hj' : p'.word ≤ j := hj
      cases hsrc : G.src with
      | some inp => rw [hsrc] at h0; exact h0
      | none =>
        rw [hsrc] at h0
        simp only [Option.getD_none] at h0 ⊢
        have hk' : 8 * p'.out ≤ 8 * (G.ioff + p'.word) := by
          rcases hk with hk | hk | hk
          · exact absurd hsrc hk
          · exact hk
          · have : G.ilen ≤ 8 * p'.word := hk
            omega
        rw [← h0]
        congr 1
        exact load64_drop G.e (a := p'.buf) (b := G.buf0) (i := 8 * p'.out) hw.len hw.frame (by omega)
    | @full p' op o R hv hsh hr hop hfull hE => exact .full (op := op) (R := R) hv hsh hr hop hfull hE
    | @bad p' h1 h2 hE => exact .bad h1 h2 hE
    | ub hu hs => exact .ub hu hs

theorem both_loop (G : OclG) (er c : Bool) {fuel : Nat} {p q : OclP}
    (h : M.doWhile (both G er c) fuel p = .ok () q) : M.doWhile (oclIterC ⟨er, false, c⟩ G.e) fuel p = .ok () q := by
  induction fuel generalizing p with
  | zero => cases h
  | succ fuel ih =>
    unfold M.doWhile at h ⊢
    rw [M.bind_def] at h ⊢
    unfold both at h
    cases hx : oclIter G.e (fill G p) with
    | ok d r =>
      rw [hx] at h
      simp only at h
      cases hy : oclIterC ⟨er, false, c⟩ G.e p with
      | ok d' r' =>
        rw [hy] at h
        simp only at h ⊢
        cases d' with
        | true => exact h
        | false => exact ih h
      | err er r' => rw [hy] at h; cases h
      | ub => rw [hy] at h; cases h
      | timeout => rw [hy] at h; cases h
    | err er r => rw [hx] at h; cases h
    | ub => rw [hx] at h; cases h
    | timeout => rw [hx] at h; cases h

/-- Two amounts of fuel that both suffice give the same result. -/
theorem fuel_eq {it : M OclP Bool} {f g : Nat} {p : OclP} (hf : M.doWhile it f p ≠ .timeout)
    (hg : M.doWhile it g p ≠ .timeout) : M.doWhile it f p = M.doWhile it g p := by
  have hm : ∀ k f, M.doWhile it f p ≠ .timeout → M.doWhile it (f + k) p = M.doWhile it f p := by
    intro k f h
    induction k with
    | zero => rfl
    | succ k ih => rw [← Nat.add_assoc, doWhile_mono it (f + k) p (by rw [ih]; exact h), ih]
  rcases Nat.le_total f g with h | h
  · obtain ⟨k, rfl⟩ := Nat.le.dest h
    exact (hm k f hf).symm
  · obtain ⟨k, rfl⟩ := Nat.le.dest h
    exact hm k g hg

/-- The fuel of `oclCoreCfg`. -/
def fuelOf (er : Bool) (src : Option (List Byte)) (ilen : Nat) (buf : List Byte) : Nat :=
  8 * (if er = true then ilen else (src.getD buf).length) + 1

/-- The loop ends with the fuel of `oclCoreCfg`, if it does with another amount. -/
theorem fuel_ok {er c : Bool} {e : Endian} {src : Option (List Byte)} {ioff ilen : Nat} {buf : List Byte} {olen : Nat}
    {q : OclP} (h : M.doWhile (oclIterC ⟨er, false, c⟩ e) (8 * ilen + 1) (oclStart src ioff ilen buf olen) = .ok () q) :
    M.doWhile (oclIterC ⟨er, false, c⟩ e) (fuelOf er src ilen buf) (oclStart src ioff ilen buf olen) = .ok () q := by
  cases er with
  | true => exact h
  | false =>
    rw [← h]
    refine fuel_eq ?_ (by rw [h]; simp)
    have := loop_prog (e := e) c (fuelOf false src ilen buf) (oclStart src ioff ilen buf olen) (by
      show 8 * (Option.getD src buf).length - 64 * (ioff + 0) + 0 < 5 * (8 * (Option.getD src buf).length + 1)
      omega)
    intro hc
    rw [hc] at this
    exact this

/-- Without look-ahead buffer, in every configuration of the other two switches: a well-formed stream
is decoded when the output fits; with `src = none` (in place) provided the output never overtakes the
words that have not been used. -/
theorem core_of (er c : Bool) (e : Endian) (src : Option (List Byte)) (ioff ilen : Nat) (buf : List Byte) (olen : Nat)
    (hin : 8 * ioff + 8 * ((ilen + 7) / 8) ≤ (src.getD buf).length)
    {ops : List Op} {data : List Byte} {rest : List Bool} (hx : Expands ops data)
    (hs : ∀ op ∈ ops, op.isShort = false) (hr : c = true → 32 ≤ rest.length)
    (hb : bytesBits (((src.getD buf).drop (8 * ioff)).take (8 * (ilen / 8))) =
      ops.flatMap Op.bits ++ (bitsOf 5 0x1e ++ rest))
    (hd : data.length ≤ olen) (hdb : data.length ≤ buf.length)
    (hk : src ≠ none ∨ ∀ pre post o, ops = pre ++ post → Run [] pre o →
      o.length ≤ 8 * (ioff + wordsUsed (pre.flatMap Op.bits).length) ∨
      ilen ≤ 8 * wordsUsed (pre.flatMap Op.bits).length) :
    ∃ b, oclCoreCfg ⟨er, false, c⟩ e src ioff ilen buf olen = .ret none data.length b ∧ b.length = buf.length ∧
      b.take data.length = data ∧ b.drop data.length = buf.drop data.length := by
  obtain ⟨pl, h0, hinvl, ho0l, hr0l⟩ := oclInit_ok e src ioff ilen buf olen hin
  obtain ⟨G, hG⟩ : ∃ G, oclG e src ioff ilen buf olen hin = G := ⟨_, rfl⟩
  rw [hG] at hinvl ho0l hr0l
  have hGb : G.bytes = ((src.getD buf).drop (8 * ioff)).take (8 * (ilen / 8)) := by rw [← hG]; rfl
  have hGe : G.e = e := by rw [← hG]; rfl
  have hGi : G.ilen = ilen := by rw [← hG]; rfl
  have hGo : G.olen = olen := by rw [← hG]; rfl
  have hGs : G.src = src := by rw [← hG]; rfl
  have hGf : G.ioff = ioff := by rw [← hG]; rfl
  have hG0 : G.buf0 = buf := by rw [← hG]; rfl
  have hcap : G.cap = min olen buf.length := by rw [← hG]; rfl
  have hstart : Start G := by
    intro j hj
    have hp : 8 * j + 8 ≤ G.orig.length := G.pad j hj
    obtain ⟨v, h1, -⟩ := load64_word G.e hp
    unfold OclG.wordAt
    rw [h1, if_pos hj]
    rw [← hG] at h1
    rw [← hG]
    have h2 := load64_at_drop e (src.getD buf) (8 * ioff) (8 * j) (by omega)
    have h1' : load64 e ((src.getD buf).drop (8 * ioff)) (8 * j) = some v := h1
    rw [h2, ← Nat.mul_add] at h1'
    show (load64 e (src.getD buf) (8 * (ioff + j))).map (swapBe64 e) = some (swapBe64 e _)
    rw [h1']; rfl
  have hp0 : bare G.src pl = oclStart src ioff ilen buf olen := by
    unfold oclInit at h0
    split at h0
    · cases h0
      rw [hGs]; rfl
    · cases h0
  rw [← hGb] at hb
  have hlen : ∀ ops : List Op, 5 * ops.length ≤ (ops.flatMap Op.bits).length := by
    intro ops
    induction ops with
    | nil => simp
    | cons op ops ih => have := five_le_bits op; simp only [List.length_cons, List.flatMap_cons, List.length_append]; omega
  have htot : (bytesBits G.bytes).length = 64 * (ilen / 8) := by rw [length_bytesBits, G.length_bytes, hGi]; omega
  have hbl := congrArg List.length hb
  rw [htot] at hbl
  simp only [List.length_append, length_bitsOf] at hbl
  have hfuel := hlen ops
  have hinv : (nolook G).Inv (bare G.src pl) := by
    refine ⟨bare_winv hinvl.1, ?_⟩
    intro j _ hj
    have h1 := hstart j hj
    have h2 : (bare G.src pl).input = G.src.getD G.buf0 := by
      rw [hp0, hGs, hG0]; rfl
    rw [h2]
    exact h1
  have hr0 : (nolook G).rest (bare G.src pl) = bytesBits G.bytes := hr0l
  have ho0 : (nolook G).outp (bare G.src pl) = [] := ho0l
  obtain ⟨p1, h1, hi1, ho1, hr1⟩ := (both_ok G hstart er c).loop_fit hx.1 hs hinv (R := rest) (by rw [hr0, hb])
    (data := data) (by rw [ho0]; exact hx.2) (by show _ ≤ G.cap; rw [hcap]; omega)
    (by
      intro p' pre post o he hne hrun hw hop hrp
      show G.src ≠ none ∨ _
      rcases hk with hk | hk
      · exact .inl (by rw [hGs]; exact hk)
      · right
        rw [ho0] at hrun
        have hcon := hk pre post o he hrun
        have hword : p'.word = wordsUsed (pre.flatMap Op.bits).length := by
          have : (fill G p').word = wordsUsed (pre.flatMap Op.bits).length := by
            apply oclRest_word hw.2
            have hrp' : G.dec.rest (fill G p') = post.flatMap Op.bits ++ (bitsOf 5 0x1e ++ rest) := hrp
            rw [hrp', hGi, ← htot, hb, he, List.flatMap_append]
            simp only [List.length_append]; omega
          exact this
        have hol : (G.dec.outp p').length = 8 * p'.out := hw.2.length_outp
        have hop' : G.dec.outp p' = o := hop
        rw [hop'] at hol
        rw [hword, hGf, hGi, ← hol]
        exact hcon)
    (fuel := 8 * ilen + 1) (by omega)
  have h2 := fuel_ok (hGe ▸ hp0 ▸ both_loop G er c h1)
  unfold oclCoreCfg oclInitC
  rw [if_neg (by simp)]
  simp only
  rw [show 8 * (if er = true then ilen else (src.getD buf).length) + 1 = fuelOf er src ilen buf from rfl]
  unfold oclBodyC
  rw [M.bind_ok h2]
  have hol : (G.dec.outp p1).length = 8 * p1.out := hi1.1.2.length_outp
  have ho1' : G.dec.outp p1 = data := ho1
  have hlb : p1.buf.length = buf.length := by rw [← hG0]; exact hi1.1.2.len
  have hfr : p1.buf.drop (8 * p1.out) = buf.drop (8 * p1.out) := by rw [← hG0]; exact hi1.1.2.frame
  have hfin : ∀ p2 : OclP, p2.buf = p1.buf → p2.out = p1.out → ∃ b, Call.ret none (p2.out * 8) p2.buf = .ret none data.length b ∧
      b.length = buf.length ∧ b.take data.length = data ∧ b.drop data.length = buf.drop data.length := by
    intro p2 hb2 ho2
    refine ⟨p2.buf, ?_, ?_, ?_, ?_⟩
    · rw [← ho1', hol, Nat.mul_comm, ho2]
    · rw [hb2, hlb]
    · rw [hb2, ← ho1', hol]; rfl
    · rw [hb2, ← ho1', hol]; exact hfr
  cases c with
  | false => exact hfin p1 rfl rfl
  | true =>
    simp only [if_true]
    have hsim := (readBits_sim (er := er) (s := G.src) (e := G.e) true 32).run _ (fill_rd hi1)
    rw [bare_fill hi1.1] at hsim
    rcases oclReadBits_spec (G := G) (n := 32) (by omega) (by omega) hi1.1.2 (fill_fut hi1.2) with
      ⟨v, p2, h3, -, -, hb2, ho2, -, -⟩ | ⟨h3, hlt⟩
    · rw [h3] at hsim
      have h4 := hsim.1
      rw [hGe] at h4
      rw [M.bind_ok h4, M.get_bind_apply]
      exact hfin (bare G.src p2) hb2 ho2
    · exfalso
      have : (G.dec.rest (fill G p1)) = rest := hr1
      rw [this] at hlt
      have := hr rfl
      omega

/-! ## No checksum -/

/-- Everything the kernel without checksum can do when it does not work in place. -/
inductive PlainRes (inp buf : List Byte) (olen : Nat) : Call → Prop
  | ok {ops : List Op} {data b : List Byte} {R : List Bool} : Expands ops data → (∀ op ∈ ops, op.isShort = false) →
      bytesBits inp = ops.flatMap Op.bits ++ (bitsOf 5 0x1e ++ R) → data.length ≤ olen → b.length = buf.length →
      b.take data.length = data → b.drop data.length = buf.drop data.length → PlainRes inp buf olen (.ret none data.length b)
  | full {ops : List Op} {o b : List Byte} {R : List Bool} : Expands ops o → (∀ op ∈ ops, op.isShort = false) →
      bytesBits inp = ops.flatMap Op.bits ++ R → olen < o.length →
      b.length = buf.length → b.drop olen = buf.drop olen → PlainRes inp buf olen (.ret (some .ENOSPC) 0 b)
  | bad {b : List Byte} : (∀ ops R data, Expands ops data → (∀ op ∈ ops, op.isShort = false) →
      bytesBits inp ≠ ops.flatMap Op.bits ++ (bitsOf 5 0x1e ++ R)) →
      b.length = buf.length → b.drop olen = buf.drop olen → PlainRes inp buf olen (.ret (some .EINVAL) 0 b)
  | ub : buf.length < 8 * (olen / 8) + 2 → PlainRes inp buf olen .ub

theorem coreNC_res (e : Endian) (inp : List Byte) (ioff ilen : Nat) (buf : List Byte) (olen : Nat)
    (hin : 8 * ioff + 8 * ((ilen + 7) / 8) ≤ inp.length) (hout : olen ≤ buf.length) :
    PlainRes ((inp.drop (8 * ioff)).take (8 * (ilen / 8))) buf olen
      (oclCoreCfg ⟨true, true, false⟩ e (some inp) ioff ilen buf olen) := by
  obtain ⟨p0, h0, hinv, ho0, hr0⟩ := oclInit_ok e (some inp) ioff ilen buf olen hin
  obtain ⟨G, hG⟩ : ∃ G, oclG e (some inp) ioff ilen buf olen hin = G := ⟨_, rfl⟩
  rw [hG] at hinv ho0 hr0
  have hGb : G.bytes = (inp.drop (8 * ioff)).take (8 * (ilen / 8)) := by rw [← hG]; rfl
  have hGe : G.e = e := by rw [← hG]; rfl
  have hGi : G.ilen = ilen := by rw [← hG]; rfl
  have hGo : G.olen = olen := by rw [← hG]; rfl
  have hGs : G.src = some inp := by rw [← hG]; rfl
  have hG0 : G.buf0 = buf := by rw [← hG]; rfl
  have hGc : G.cap = olen := by rw [← hG]; simp only [oclG]; omega
  rw [← hGb]
  have htot : (bytesBits G.bytes).length = 64 * (ilen / 8) := by rw [length_bytesBits, G.length_bytes, hGi]; omega
  have hres := (oclIter_ok G).loop_res (fun p' => .inl (by rw [hGs]; simp)) (8 * ilen + 1) hinv
    (by rw [hr0, htot]; omega)
  rw [hGe] at hres
  unfold oclCoreCfg oclInitC
  simp only [if_true]
  rw [h0]
  simp only
  unfold oclBodyC
  rw [oclIterC_std]
  simp only [Bool.false_eq_true, if_false]
  generalize hx : M.doWhile (oclIter e) (8 * ilen + 1) p0 = x at hres
  have hE : ∀ p, G.dec.E p → p.buf.length = buf.length ∧ p.buf.drop olen = buf.drop olen := by
    intro p h
    have h : p.buf.length = G.buf0.length ∧ p.buf.drop G.cap = G.buf0.drop G.cap := h
    rw [hGc, hG0] at h
    exact h
  have hcap : G.dec.cap = olen := hGc
  cases hres with
  | @ok p1 ops hi1 hv hs hrest hrun =>
    rw [M.bind_ok hx]
    rw [ho0] at hrun
    rw [hr0] at hrest
    have hol : (G.dec.outp p1).length = 8 * p1.out := hi1.1.length_outp
    have hfit := (oclIter_ok G).fits p1 hi1.1
    obtain ⟨he1, he2⟩ := hE p1 hi1.1.e
    rw [M.get_bind_apply]
    simp only [M.pure_apply]
    rw [Nat.mul_comm, ← hol]
    exact .ok ⟨hv, hrun⟩ hs hrest (by omega) he1 (by rw [hol]; rfl) (by rw [hol, hi1.1.frame, hG0])
  | @full p1 ops o R hv hs hrest hrun hfull hE1 =>
    rw [M.bind_err hx]
    rw [ho0] at hrun
    rw [hr0] at hrest
    obtain ⟨he1, he2⟩ := hE p1 hE1
    exact .full ⟨hv, hrun⟩ hs hrest (by omega) he1 he2
  | @bad p1 hno hE1 =>
    rw [M.bind_err hx]
    obtain ⟨he1, he2⟩ := hE p1 hE1
    refine .bad ?_ he1 he2
    intro ops' rest' data hx' hs' hb'
    rw [hr0, ho0] at hno
    exact hno ops' rest' data hx'.1 hs' hb' hx'.2
  | @ub p1 hi1 hu =>
    rw [M.bind_def, hx]
    refine .ub ?_
    have hu : p1.buf.length < 8 * p1.out + 2 ∨ p1.buf.length < 8 * (G.olen / 8) := hu
    have h1 := hi1.1.len
    have h2 := hi1.1.out
    rw [hG0] at h1
    rw [hGc] at h2
    rw [hGo] at hu
    omega

end OclConfig
end Lib842
