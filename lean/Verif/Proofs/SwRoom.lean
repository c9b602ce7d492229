import Verif.SpecRoom
import Verif.Proofs.SwCall
/-!
# Exactly when `sw842_decompress` reports a lack of space
-/

namespace Lib842
open Spec Decomp

theorem nextBits_full (e : Endian) {n : Nat} (h1 : 1 ≤ n) (h64 : n ≤ 64) {p p' : Decomp} (hp : p.RInv) : nextBits e n p ≠ .err .ENOSPC p' := by
  by_cases hn : n ≤ p.rest.length
  · obtain ⟨v, q, hq, -⟩ := (nextBits_reads e n h1 h64).ok p hp hn
    rw [hq]; intro h; cases h
  · obtain ⟨q, hq, -⟩ := (nextBits_reads e n h1 h64).eof p hp (by omega)
    rw [hq]; intro h; cases h

theorem doData_full (e : Endian) {n : Nat} (hn : SizeOk n) {p p' : Decomp} (hp : p.DInv) (h : doData e n p = .err .ENOSPC p') :
    p.buf.length < p.outp.length + n := by
  have hn8 : 1 ≤ n * 8 ∧ n * 8 ≤ 64 := by rcases hn with rfl | rfl | rfl <;> omega
  have ho := hp.o
  rw [hp.length_outp]
  unfold doData at h
  rw [M.get_bind_apply] at h
  by_cases hc : n > p.olen
  · omega
  rw [if_neg hc] at h
  rcases nextBits_step e hn8.1 hn8.2 hp with ⟨v, p1, h1, hi1, hl1, hv, hr, ho1, hol, -, -⟩ | ⟨er, p1, h1, hl⟩
  · rw [M.bind_ok h1] at h
    obtain ⟨bs, hbl, hbb, hem⟩ := doData_emit e hn hv
    rw [hem] at h
    obtain ⟨p2, h2, -⟩ := emit_ok hi1 (bs := bs) (by omega)
    rw [h2] at h
    cases h
  · rw [M.bind_err h1] at h
    cases h
    exact absurd h1 (nextBits_full e hn8.1 hn8.2 hp.r)

theorem doIndex_full (e : Endian) {n : Nat} (hn : SizeOk n) {p p' : Decomp} (hp : p.DInv) (h : doIndex e n p = .err .ENOSPC p') :
    ∃ i o R, i < 2 ^ indexBits n ∧ p.rest = bitsOf (indexBits n) i ++ R ∧ RingRef p.outp.length n i o ∧ p.buf.length < p.outp.length + n := by
  have ho := hp.o
  rw [doIndex_eq e hn] at h
  rw [hp.length_outp]
  unfold doIndexN at h
  rw [M.get_bind_apply] at h
  rcases nextBits_step e (indexBits_bounds n).1 (indexBits_bounds n).2 hp with
    ⟨v, p1, h1, hi1, hl1, hv, hr, ho1, hol, hout, hbuf⟩ | ⟨er, p1, h1, hl⟩
  · rw [M.bind_ok h1] at h
    by_cases hoff : indexOffset v.toNat n (ringSize n) (roundDown p.out 8) + n > roundDown p.out 8
    · rw [if_pos hoff] at h; cases h
    rw [if_neg hoff, M.get_bind_apply] at h
    by_cases hsp : n > p1.olen
    · exact ⟨v.toNat, _, p1.rest, hv, hr, indexOffset_sound hn hv (by omega), by omega⟩
    exfalso
    rw [if_neg hsp] at h
    have hrd : roundDown p.out 8 ≤ p.out := by unfold roundDown; omega
    have hin := hi1.o
    have hle : indexOffset v.toNat n (ringSize n) (roundDown p.out 8) + n ≤ p1.out := by omega
    rw [M.access_bind_some (g := fun q : Decomp => readBytes q.buf _ n) (readBytes_ok (by omega))] at h
    obtain ⟨p2, h2, -⟩ := emit_ok hi1
      (bs := (p1.buf.drop (indexOffset v.toNat n (ringSize n) (roundDown p.out 8))).take n) (by simp; omega)
    rw [h2] at h
    cases h
  · rw [M.bind_err h1] at h
    cases h
    exact absurd h1 (nextBits_full e (indexBits_bounds n).1 (indexBits_bounds n).2 hp.r)

theorem doActions_full (e : Endian) (k : Nat) (acts : List Action) (hacts : ∀ a ∈ acts, ActionOk a) {p p' : Decomp} (hp : p.DInv)
    (h : doActions e (acts.map encAction ++ List.replicate k 0x40) p = .err .ENOSPC p') :
    ∃ (args : List Arg) (act : Action) (acts' : List Action) (d' : List Byte) (rest : List Bool), acts = args.map Arg.action ++ act :: acts' ∧
      (∀ a ∈ args, a.Valid) ∧ p.rest = args.flatMap Arg.bits ++ rest ∧ ArgsRun p.outp args d' ∧ d'.length ≤ p.buf.length ∧
      ArgFull p.buf.length d' act rest := by
  induction acts generalizing p with
  | nil =>
    rw [List.map_nil, List.nil_append, doActions_noop e k p] at h
    cases h
  | cons a acts ih =>
    have hacts' : ∀ a ∈ acts, ActionOk a := fun a ha => hacts a (List.mem_cons_of_mem _ ha)
    have ha := hacts a (List.mem_cons_self ..)
    have hlo := hp.length_outp
    have ho := hp.o
    rw [List.map_cons, List.cons_append, doActions] at h
    cases a with
    | D n =>
      simp only [(encAction_D ha).1, (encAction_D ha).2, if_true] at h
      rcases doData_step e ha hp with ⟨_, p1, h1, hi1, hl1, bs, hbl, hr1, ho1⟩ | ⟨er, p1, h1, hl⟩
      · rw [M.bind_ok h1] at h
        obtain ⟨args, act, acts', d', rest, e1, e2, e3, e4, e5, e6⟩ := ih hacts' hi1 h
        rw [hl1] at e5 e6
        refine ⟨.data bs :: args, act, acts', d', rest, ?_, ?_, ?_, .cons .data (ho1 ▸ e4), e5, e6⟩
        · simp [Arg.action, hbl, e1]
        · intro a ha'
          rcases List.mem_cons.1 ha' with rfl | h
          · trivial
          · exact e2 a h
        · rw [hr1, e3]; simp [Arg.bits]
      · rw [M.bind_err h1] at h
        cases h
        exact ⟨[], .D n, acts, p.outp, p.rest, rfl, by simp, by simp, .nil, by omega, .data (doData_full e ha hp h1)⟩
    | I n =>
      simp only [(encAction_I ha).1, (encAction_I ha).2, if_true] at h
      rw [if_neg (by decide)] at h
      rcases doIndex_step e ha hp with ⟨_, p1, h1, hi1, hl1, i, hib, hr1, o, href, ho1⟩ | ⟨er, p1, h1, hl⟩
      · rw [M.bind_ok h1] at h
        obtain ⟨args, act, acts', d', rest, e1, e2, e3, e4, e5, e6⟩ := ih hacts' hi1 h
        rw [hl1] at e5 e6
        refine ⟨.index n i :: args, act, acts', d', rest, ?_, ?_, ?_, .cons (.index href) (ho1 ▸ e4), e5, e6⟩
        · simp [Arg.action, e1]
        · intro a ha'
          rcases List.mem_cons.1 ha' with rfl | h
          · exact hib
          · exact e2 a h
        · rw [hr1, e3]; simp [Arg.bits]
      · rw [M.bind_err h1] at h
        cases h
        obtain ⟨i, o, R, h2, h3, h4, h5⟩ := doIndex_full e ha hp h1
        refine ⟨[], .I n, acts, p.outp, p.rest, rfl, by simp, by simp, .nil, by omega, ?_⟩
        rw [h3]
        exact .index h2 h4 h5

theorem doShort_full (e : Endian) : ∀ (n : Nat) {p p' : Decomp}, p.DInv → n ≤ p.olen → doShort e n p ≠ .err .ENOSPC p'
  | 0, p, p', _, _ => by intro h; cases h
  | n + 1, p, p', hp, hn => by
    intro h
    rw [doShort] at h
    have ho := hp.o
    rcases nextBits_step e (n := 8) (by omega) (by omega) hp with
      ⟨v, p1, h1, hi1, hl1, hv, hr, ho1, hol, hout, hbuf⟩ | ⟨er, p1, h1, hl⟩
    · rw [M.bind_ok h1] at h
      obtain ⟨p2, h2, hi2, ho2, hr2, hl2⟩ := emit_ok hi1 (bs := [v.setWidth 8]) (by simp; omega)
      rw [M.bind_ok h2] at h
      have := hi2.o
      have hlo2 := hi2.length_outp
      rw [ho2, List.length_append, hi1.length_outp] at hlo2
      simp only [List.length_singleton] at hlo2
      exact doShort_full e n hi2 (by omega) h
    · rw [M.bind_err h1] at h
      cases h
      exact nextBits_full e (by omega) (by omega) hp.r h1

theorem decompOp_full (e : Endian) {code : Nat} {p p' : Decomp} (hp : p.DInv) (h : decompOp e code p = .err .ENOSPC p') :
    OpFull p.buf.length p.outp (bitsOf 5 code ++ p.rest) := by
  have hlo := hp.length_outp
  have ho := hp.o
  unfold decompOp at h
  by_cases h1b : code = 0x1B
  · rw [if_pos h1b] at h
    rcases nextBits_step e (n := 6) (by omega) (by omega) hp with
      ⟨v, p1, h1, hi1, hl1, hv, hr, ho1, hol, hout, hbuf⟩ | ⟨er, p1, h1, hl⟩
    · rw [M.bind_ok h1, M.get_bind_apply] at h
      by_cases hz : p1.out = 0
      · rw [if_pos hz] at h; cases h
      rw [if_neg hz] at h
      by_cases hs : (v.toNat + 1) * 8 > p1.olen
      · rw [hr, h1b]
        refine .rep hv ?_ (by omega)
        intro hc
        rw [hc] at hlo
        simp at hlo
        omega
      rw [if_neg hs] at h
      by_cases h8 : p1.out < 8
      · rw [doRepeat_ub _ h8] at h; cases h
      · obtain ⟨p2, h2, -⟩ := doRepeat_ok (v.toNat + 1) hi1 (by omega) (by omega)
        rw [h2] at h; cases h
    · rw [M.bind_err h1] at h
      cases h
      exact absurd h1 (nextBits_full e (by omega) (by omega) hp.r)
  rw [if_neg h1b] at h
  by_cases h1c : code = 0x1C
  · rw [if_pos h1c, M.get_bind_apply] at h
    by_cases hs : 8 > p.olen
    · rw [h1c]; exact .zeros (by omega)
    rw [if_neg hs] at h
    obtain ⟨p2, h2, -⟩ := emit_ok hp (bs := List.replicate 8 0#8) (by simp; omega)
    rw [h2] at h; cases h
  rw [if_neg h1c] at h
  by_cases h1d : code = 0x1D
  · rw [if_pos h1d] at h
    rcases nextBits_step e (n := 3) (by omega) (by omega) hp with
      ⟨v, p1, h1, hi1, hl1, hv, hr, ho1, hol, hout, hbuf⟩ | ⟨er, p1, h1, hl⟩
    · rw [M.bind_ok h1] at h
      by_cases hz : v.toNat = 0 ∨ v.toNat > 7
      · rw [if_pos hz] at h; cases h
      rw [if_neg hz, M.get_bind_apply] at h
      by_cases hs : v.toNat > p1.olen
      · rw [hr, h1d]; exact .short (by omega) (by omega) (by omega)
      rw [if_neg hs] at h
      exact absurd h (doShort_full e v.toNat hi1 (by omega))
    · rw [M.bind_err h1] at h
      cases h
      exact absurd h1 (nextBits_full e (by omega) (by omega) hp.r)
  rw [if_neg h1d] at h
  unfold doOp at h
  by_cases h1a : code ≥ 0x1a
  · rw [if_pos h1a] at h; cases h
  rw [if_neg h1a] at h
  obtain ⟨acts, ht, hd, hok⟩ := decompOps_eq code (by omega)
  rw [M.access_bind_some (g := fun _ : Decomp => decompOps[code]?) hd] at h
  obtain ⟨args, act, acts', d', rest, e1, e2, e3, e4, e5, e6⟩ := doActions_full e _ acts hok hp h
  rw [e3]
  exact .template (by rw [ht, e1]) e2 e4 e5 e6

theorem decompLoop_full (e : Endian) (fuel : Nat) {p p' : Decomp} (hp : p.DInv) (h : decompLoop e fuel p = .err .ENOSPC p') :
    ∃ ops d R, (∀ op ∈ ops, op.Valid) ∧ Run p.outp ops d ∧ d.length ≤ p.buf.length ∧ p.rest = ops.flatMap Op.bits ++ R ∧
      OpFull p.buf.length d R := by
  induction fuel generalizing p with
  | zero => cases h
  | succ fuel ih =>
    rw [decompLoop] at h
    rcases nextBits_step e (n := 5) (by omega) (by omega) hp with
      ⟨v, p1, h1, hi1, hl1, hv, hr, ho1, hol, hout, hbuf⟩ | ⟨er, p1, h1, hl⟩
    · rw [M.bind_ok h1] at h
      by_cases hend : v.toNat = 0x1E
      · rw [if_pos hend] at h; cases h
      rw [if_neg hend] at h
      rcases decompOp_step e hv hend hi1 with (⟨_, p2, h2, hi2, hl2, op, hval, hb, hst⟩ | ⟨er, p2, h2, hl⟩) | ⟨hub, n, R, hb, hrub⟩
      · rw [M.bind_ok h2] at h
        obtain ⟨ops, d, R, e1, e2, e3, e4, e5⟩ := ih hi2 h
        rw [hl2, hl1] at e3 e5
        refine ⟨op :: ops, d, R, ?_, .cons (ho1 ▸ hst) e2, e3, ?_, e5⟩
        · intro o ho; rcases List.mem_cons.1 ho with rfl | h
          · exact hval
          · exact e1 o h
        · rw [hr, hb, e4]; simp
      · rw [M.bind_err h2] at h
        cases h
        have := decompOp_full e hi1 h2
        rw [hl1, ho1, ← hr] at this
        have hlo := hp.length_outp
        have ho := hp.o
        exact ⟨[], p.outp, p.rest, by simp, .nil, by omega, by simp, this⟩
      · rw [M.bind_def, hub] at h; cases h
    · rw [M.bind_err h1] at h
      cases h
      exact absurd h1 (nextBits_full e (by omega) (by omega) hp.r)

/-! ## The converse -/

theorem doActions_argFull (e : Endian) {act : Action} (hok : ActionOk act) {p : Decomp} (hp : p.DInv) {d : List Byte} (hd : p.outp = d)
    {rest : List Bool} (hr : p.rest = rest) (hfull : ArgFull p.buf.length d act rest) (tl : List Nat) :
    ∃ p', doActions e (encAction act :: tl) p = .err .ENOSPC p' := by
  have hlo := hp.length_outp
  have ho := hp.o
  rw [hd] at hlo
  rw [doActions]
  cases hfull with
  | @data n _ h =>
    have : doData e n p = .err .ENOSPC p := by
      unfold doData
      rw [M.get_bind_apply, if_pos (by omega)]
      rfl
    simp only [(encAction_D hok).1, (encAction_D hok).2, if_true]
    rw [M.bind_err this]
    exact ⟨p, rfl⟩
  | @index n i o _ hi hrr h =>
    simp only [(encAction_I hok).1, (encAction_I hok).2, if_true]
    rw [if_neg (by decide)]
    rcases doIndex_of e hok hi hp hr (by rw [hd]; exact hrr) with ⟨hc, -⟩ | ⟨-, p1, h1⟩
    · rw [hd] at hc; omega
    · rw [M.bind_err h1]; exact ⟨_, rfl⟩

theorem doActions_opFull (e : Endian) (args : List Arg) {act : Action} (hok : ActionOk act) (hacts : ∀ a ∈ args, ActionOk a.action)
    (hval : ∀ a ∈ args, a.Valid) {p : Decomp} (hp : p.DInv) {rest : List Bool} (hR : p.rest = args.flatMap Arg.bits ++ rest) {d : List Byte}
    (hrun : ArgsRun p.outp args d) (hfit : d.length ≤ p.buf.length) (hfull : ArgFull p.buf.length d act rest) (tl : List Nat) :
    ∃ p', doActions e ((args.map Arg.action).map encAction ++ encAction act :: tl) p = .err .ENOSPC p' := by
  induction args generalizing p with
  | nil =>
    cases hrun
    exact doActions_argFull e hok hp rfl (by simpa using hR) hfull tl
  | cons a args ih =>
    have hacts' : ∀ a ∈ args, ActionOk a.action := fun a ha => hacts a (List.mem_cons_of_mem _ ha)
    have hval' : ∀ a ∈ args, a.Valid := fun a ha => hval a (List.mem_cons_of_mem _ ha)
    have ha := hacts a (List.mem_cons_self ..)
    have hv := hval a (List.mem_cons_self ..)
    rw [List.map_cons, List.map_cons, List.cons_append, doActions]
    cases hrun with
    | @cons _ _ o1 _ _ h1 h2 =>
      have hle := h2.length_le
      simp only [List.flatMap_cons, List.append_assoc] at hR
      cases h1 with
      | @data bs =>
        simp only [Arg.action, (encAction_D ha).1, (encAction_D ha).2, if_true]
        rcases doData_of e ha hp hR with ⟨hc, p1, h1, hi1, hl1, hr1, ho1⟩ | ⟨hc, p1, h1⟩
        · rw [M.bind_ok h1]
          rw [← ho1] at h2
          exact ih hacts' hval' hi1 hr1 h2 (by omega) (by rw [hl1]; exact hfull)
        · simp only [List.length_append] at hle
          omega
      | @index n i o' href =>
        simp only [Arg.action, (encAction_I ha).1, (encAction_I ha).2, if_true]
        rw [if_neg (by decide)]
        rcases doIndex_of e ha hv hp hR href with ⟨hc, p1, h1, hi1, hl1, hr1, ho1⟩ | ⟨hc, p1, h1⟩
        · rw [M.bind_ok h1]
          rw [← ho1] at h2
          exact ih hacts' hval' hi1 hr1 h2 (by omega) (by rw [hl1]; exact hfull)
        · have : o' + n ≤ p.outp.length := by
            have := href.2.1
            omega
          simp only [List.length_append, List.length_take, List.length_drop] at hle
          omega

theorem decompOp_opFull (e : Endian) {p : Decomp} (hp : p.DInv) {d : List Byte} (hd : p.outp = d) {R : List Bool} (hR : p.rest = R) {k : Nat}
    (hk : p.buf.length = k) (hfull : OpFull k d R) (fuel : Nat) : ∃ p', decompLoop e (fuel + 1) p = .err .ENOSPC p' := by
  subst hd hk
  have go : ∀ (c : Nat) (Y : List Bool), c < 32 → c ≠ 0x1e → R = bitsOf 5 c ++ Y →
      (∀ q : Decomp, q.DInv → q.rest = Y → q.outp = p.outp → q.buf = p.buf → q.out = p.out → q.olen = p.olen →
        ∃ p', decompOp e c q = .err .ENOSPC p') →
      ∃ p', decompLoop e (fuel + 1) p = .err .ENOSPC p' := by
    intro c Y hc hne hRe hop
    obtain ⟨v, p1, hn1, hvk, hi1, hr1, hou1, hol1, hout1, hb1⟩ :=
      nextBits_of e (n := 5) (by omega) (by omega) hp (show _ < 2 ^ 5 from hc) (hR.trans hRe)
    rw [decompLoop, M.bind_ok hn1, hvk, if_neg hne]
    obtain ⟨p', h⟩ := hop p1 hi1 hr1 hou1 hb1 hout1 hol1
    exact ⟨p', by rw [M.bind_err h]⟩
  have hlo := hp.length_outp
  have ho := hp.o
  cases hfull with
  | @template code args act acts d' rest ht hv hrun hfit hf =>
    have hc : code < 26 := by
      by_contra hge
      rw [List.getElem?_eq_none (by simp [templates]; omega)] at ht
      cases ht
    refine go code _ (by omega) (by omega) rfl fun q hq hqr hqo hqb _ _ => ?_
    obtain ⟨acts0, ht0, hd, hok⟩ := decompOps_eq code hc
    obtain rfl : acts0 = args.map Arg.action ++ act :: acts := by
      rw [ht] at ht0
      exact (Option.some.inj ht0).symm
    unfold decompOp
    rw [if_neg (by omega), if_neg (by omega), if_neg (by omega)]
    unfold doOp
    rw [if_neg (by omega), M.access_bind_some (g := fun _ : Decomp => decompOps[code]?) hd, List.map_append, List.map_cons, List.append_assoc,
      List.cons_append]
    exact doActions_opFull e args (hok _ (by simp)) (fun a ha => hok _ (by simp; exact .inl ⟨a, ha, rfl⟩)) hv hq hqr (hqo ▸ hrun)
      (by rw [hqb]; exact hfit) (by rw [hqb]; exact hf) _
  | @rep r rest hr hd h =>
    refine go 0x1b _ (by omega) (by omega) rfl fun q hq hqr hqo hqb hqout hqol => ?_
    unfold decompOp
    rw [if_pos rfl]
    obtain ⟨v, p1, h1, hvk, hi1, hr1, hou1, hol1, hout1, hb1⟩ :=
      nextBits_of e (n := 6) (by omega) (by omega) hq (show r < 2 ^ 6 from hr) hqr
    have hpos : 0 < p.outp.length := List.length_pos_iff.2 hd
    rw [M.bind_ok h1, M.get_bind_apply, if_neg (by omega), hvk, if_pos (by omega)]
    exact ⟨_, rfl⟩
  | @zeros rest h =>
    refine go 0x1c _ (by omega) (by omega) rfl fun q hq hqr hqo hqb hqout hqol => ?_
    unfold decompOp
    rw [if_neg (by omega), if_pos rfl, M.get_bind_apply, if_pos (by omega)]
    exact ⟨_, rfl⟩
  | @short m rest h1 h7 h =>
    refine go 0x1d _ (by omega) (by omega) rfl fun q hq hqr hqo hqb hqout hqol => ?_
    unfold decompOp
    rw [if_neg (by omega), if_neg (by omega), if_pos rfl]
    obtain ⟨v, p1, h1', hvk, hi1, hr1, hou1, hol1, hout1, hb1⟩ :=
      nextBits_of e (n := 3) (by omega) (by omega) hq (show m < 2 ^ 3 by omega) hqr
    rw [M.bind_ok h1', hvk, if_neg (by omega), M.get_bind_apply, if_pos (by omega)]
    exact ⟨_, rfl⟩

theorem sw_full_iff (e : Endian) (addr : Nat) (inp buf : List Byte) :
    (∃ n b, sw842Decompress e addr inp buf = .ret (some .ENOSPC) n b) ↔
      SwOverflows inp buf.length ∨ ∃ d, Decodes inp d ∧ d.length ≤ buf.length ∧ 0xffffffff < d.length := by
  have hp := decompInit_inv inp buf
  have hfl : (decompInit inp buf).rest.length < 5 * (8 * inp.length + 1) := by
    rw [decompInit_rest]; simpa using sw842Decompress_fuel inp
  constructor
  · rintro ⟨n, b, h⟩
    unfold sw842Decompress at h
    have hres := decompLoop_res e (8 * inp.length + 1) hp hfl
    cases hx : decompLoop e (8 * inp.length + 1) (decompInit inp buf) with
    | ok u p1 =>
      right
      rw [hx] at hres
      cases hres with
      | @ok _ ops hi hl hvs hrest hrun =>
        rw [decompInit_rest] at hrest
        rw [decompInit_outp] at hrun
        rw [decompInit_buf] at hl
        rw [decompTail e addr _ hx hi hl] at h
        rcases nextBits_step e (n := 32) (by omega) (by omega) hi with
          ⟨v, p2, h1, hi1, hl1, hv, hr, ho1, hol, hout, hbuf⟩ | ⟨er', p2, h1, hl1⟩
        · rw [h1] at h
          simp only at h
          split at h
          · cases h
          · rename_i hc
            split at h
            · rename_i hm
              refine ⟨p1.outp, ⟨ops, p2.rest, ⟨hvs, hrun⟩, ?_⟩, ?_, hm⟩
              · have hv : v.toNat = (crc p1.outp).toNat := by
                  rw [not_not] at hc; rw [hc, setWidth_crc]
                rw [hrest, hr, hv, trailer]; simp only [List.append_assoc]
              · have := hi.length_outp
                have := hi.o
                omega
            · cases h
        · rw [h1] at h
          cases h
          exact absurd h1 (nextBits_full e (by omega) (by omega) hi.r)
    | err er' p1 =>
      left
      unfold sw842DecompressF decompBody at h
      rw [M.bind_err hx] at h
      cases h
      obtain ⟨ops, d, R, e1, e2, e3, e4, e5⟩ := decompLoop_full e _ hp hx
      exact ⟨ops, d, R, ⟨e1, e2⟩, e3, e4, e5⟩
    | ub =>
      unfold sw842DecompressF decompBody at h
      rw [M.bind_def, hx] at h
      cases h
    | timeout =>
      unfold sw842DecompressF decompBody at h
      rw [M.bind_def, hx] at h
      cases h
  · rintro (⟨ops, d, R, ⟨hv, hrun⟩, hfit, hb, hfull⟩ | ⟨d, hd, hle, hgt⟩)
    · have hlen := length_flatMap_bits ops
      have hR5 : 5 ≤ R.length := by cases hfull <;> simp
      have hl : (decompInit inp buf).rest.length = (ops.flatMap Op.bits).length + R.length := by
        rw [decompInit_rest, hb]; simp
      obtain ⟨f, hf⟩ : ∃ f, 8 * inp.length + 1 = (f + 1) + ops.length := ⟨8 * inp.length + 1 - ops.length - 1, by omega⟩
      rcases decompLoop_run e ops hv hp ((decompInit_rest inp buf).trans hb) hrun with ⟨hc, p1, hi1, hl1, hr1, ho1, hf1⟩ | ⟨hc, p1, hf1⟩
      · obtain ⟨p2, h2⟩ := decompOp_opFull e hi1 ho1 hr1 hl1 hfull f
        refine ⟨0, p2.buf, ?_⟩
        unfold sw842Decompress sw842DecompressF decompBody
        rw [hf, M.bind_err ((hf1 _).trans h2)]
      · rw [decompInit_buf] at hc; omega
    · obtain ⟨b', -, -, h⟩ := sw842Decompress_decodes e addr inp buf hd
      rw [if_neg (by omega), if_pos hgt] at h
      exact ⟨0, b', h⟩

/-! ## Smaller buffers -/

theorem argsFull_mono {k k' : Nat} (hk : k' ≤ k) (args : List Arg) {act : Action} {acts : List Action} {d d' : List Byte} {rest : List Bool}
    (hv : ∀ a ∈ args, a.Valid) (hrun : ArgsRun d args d') (hd : d.length ≤ k') (hf : ArgFull k d' act rest) :
    ∃ (args1 : List Arg) (act1 : Action) (acts1 : List Action) (d1 : List Byte) (rest1 : List Bool),
      args.map Arg.action ++ act :: acts = args1.map Arg.action ++ act1 :: acts1 ∧ args.flatMap Arg.bits ++ rest = args1.flatMap Arg.bits ++ rest1 ∧
      (∀ a ∈ args1, a.Valid) ∧ ArgsRun d args1 d1 ∧ d1.length ≤ k' ∧ ArgFull k' d1 act1 rest1 := by
  induction args generalizing d with
  | nil =>
    cases hrun
    refine ⟨[], act, acts, _, rest, rfl, rfl, by simp, .nil, hd, ?_⟩
    cases hf with
    | data h => exact .data (by omega)
    | index hi hr h => exact .index hi hr (by omega)
  | cons a args ih =>
    have hv' : ∀ a ∈ args, a.Valid := fun a ha => hv a (List.mem_cons_of_mem _ ha)
    have ha := hv a (List.mem_cons_self ..)
    cases hrun with
    | @cons _ _ o1 _ _ h1 h2 =>
      by_cases hle : o1.length ≤ k'
      · obtain ⟨args1, act1, acts1, d1, rest1, e1, e2, e3, e4, e5, e6⟩ := ih hv' h2 hle
        refine ⟨a :: args1, act1, acts1, d1, rest1, by simp [e1], ?_, ?_, .cons h1 e4, e5, e6⟩
        · simp only [List.flatMap_cons, List.append_assoc, e2]
        · intro b hb
          rcases List.mem_cons.1 hb with rfl | h
          · exact ha
          · exact e3 b h
      · refine ⟨[], a.action, args.map Arg.action ++ act :: acts, d, (a :: args).flatMap Arg.bits ++ rest, rfl, rfl, by simp, .nil, hd, ?_⟩
        cases h1 with
        | @data bs =>
          refine .data ?_
          simp only [List.length_append] at hle
          omega
        | @index n i o href =>
          simp only [List.length_append, List.length_take, List.length_drop] at hle
          simp only [List.flatMap_cons, List.append_assoc]
          exact .index ha href (by omega)

theorem opFull_mono {k k' : Nat} (hk : k' ≤ k) {d : List Byte} (hd : d.length ≤ k') {R : List Bool} (h : OpFull k d R) : OpFull k' d R := by
  cases h with
  | @template code args act acts d' rest ht hv hrun hfit hf =>
    obtain ⟨args1, act1, acts1, d1, rest1, e1, e2, e3, e4, e5, e6⟩ := argsFull_mono (acts := acts) hk args hv hrun hd hf
    rw [e2]
    exact .template (ht.trans (by rw [e1])) e3 e4 e5 e6
  | rep hr hd h => exact .rep hr hd (by omega)
  | zeros h => exact .zeros (by omega)
  | short h1 h7 h => exact .short h1 h7 (by omega)

/-- Valid ops for more data than there is room for -/
theorem sw_ops_full (e : Endian) (addr : Nat) (inp buf : List Byte) {ops : List Op} {d : List Byte} {R : List Bool} (hx : Expands ops d)
    (hb : bytesBits inp = ops.flatMap Op.bits ++ R) (hlt : buf.length < d.length) :
    ∃ b, sw842Decompress e addr inp buf = .ret (some .ENOSPC) 0 b := by
  have hlen := length_flatMap_bits ops
  have hl : (bytesBits inp).length = (ops.flatMap Op.bits).length + R.length := by rw [hb]; simp
  rw [length_bytesBits] at hl
  obtain ⟨f, hf⟩ : ∃ f, 8 * inp.length + 1 = f + ops.length := ⟨8 * inp.length + 1 - ops.length, by omega⟩
  rcases decompLoop_run e ops hx.1 (decompInit_inv inp buf) ((decompInit_rest inp buf).trans hb) hx.2 with ⟨hc, -⟩ | ⟨hc, p1, hf1⟩
  · rw [decompInit_buf] at hc; omega
  · refine ⟨p1.buf, ?_⟩
    unfold sw842Decompress sw842DecompressF decompBody
    rw [hf, M.bind_err (hf1 _)]

end Lib842
