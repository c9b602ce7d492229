import Verif.Proofs.ErrCodes
import Verif.Proofs.OptCall
import Verif.SpecRoom
/-!
# Exactly when `optsw842_decompress` reports a lack of space
-/

namespace Lib842
open Spec

namespace Codes

/-- The bits at which an iteration finds that there is no room -/
def Full (p : ODecomp) : Prop :=
  ∃ R, (∃ o, (o < 26 ∨ o = 0x1c) ∧ p.buf.length < p.outp.length + 8 ∧ p.rest = bitsOf 5 o ++ R) ∨
    ∃ r, r < 64 ∧ p.outp ≠ [] ∧ p.buf.length < p.outp.length + 8 * (r + 1) ∧ p.rest = bitsOf 5 0x1b ++ (bitsOf 6 r ++ R)

theorem optIter_full (e : Endian) {p p' : ODecomp} (hp : optView.Inv p) (h : optIter e p = .err .ENOSPC p') : Full p := by
  obtain ⟨hp, herr, h8⟩ := hp
  have heok : EOk p := .inl herr
  have hlo := hp.length_outp
  unfold optIter at h
  obtain ⟨v, p1, h1, hi1, hs1, hcase⟩ := readBits_spec e (n := 5) (by omega) (by omega) hp
  have hb1 : p1.buf.length = p.buf.length := by rw [hs1.buf]
  have he1 : EOk p1 := (plain_readBits e 5 p heok).2 v p1 h1
  rw [M.bind_ok h1] at h
  rcases hcase with ⟨hv, hr, he⟩ | ⟨_, hne, _⟩
  swap
  · obtain ⟨er', hc⟩ := checkError_ne hne
    have := (plain_checkError p1 he1).1 _ _ hc
    rw [M.bind_err hc] at h
    cases h
    cases this
  rw [M.bind_ok (checkError_none (he.trans herr)), M.get_bind_apply] at h
  by_cases hsp : (v.toNat < 0x1a ∨ v.toNat = 0x1C) ∧ p1.out + 8 > p1.olen
  · have := hi1.olen
    have := hs1.out
    exact ⟨_, .inl ⟨v.toNat, hsp.1, by omega, hr⟩⟩
  rw [if_neg hsp] at h
  by_cases hend : v.toNat = 0x1E
  · rw [if_pos hend] at h; cases h
  rw [if_neg hend] at h
  unfold odoOp at h
  cases hsw : optSwitch[v.toNat]? with
  | some row =>
    rw [hsw] at h
    have hpl : Plain ((readBits e row.1 >>= fun rep => optSteps e rep row.2) >>= fun _ => checkError >>= fun _ =>
        (Pure.pure false : M ODecomp Bool)) :=
      .bind (.bind (plain_readBits _ _) fun _ => plain_optSteps _ _ _) fun _ => .bind plain_checkError fun _ => .pure _
    exact absurd ((hpl p1 he1).1 _ _ h) (by decide)
  | none =>
    rw [hsw] at h
    simp only at h
    by_cases h1b : v.toNat = 0x1B
    · rw [if_pos h1b] at h
      obtain ⟨w, p2, h2, hi2, hs2, hcase2⟩ := readBits_spec e (n := 6) (by omega) (by omega) hi1
      have he2 : EOk p2 := (plain_readBits e 6 p1 he1).2 w p2 h2
      rw [M.bind_assoc', M.bind_ok h2, M.bind_assoc'] at h
      rcases hcase2 with ⟨hw, hr2, he'⟩ | ⟨_, hne, _⟩
      swap
      · obtain ⟨er', hc⟩ := checkError_ne hne
        have := (plain_checkError p2 he2).1 _ _ hc
        rw [M.bind_err hc] at h
        cases h
        cases this
      rw [M.bind_ok (checkError_none (he'.trans (he.trans herr))), M.bind_assoc', M.get_bind_apply] at h
      by_cases hz : p2.out = 0
      · rw [if_pos hz] at h; cases h
      rw [if_neg hz] at h
      have : p2.buf.length = p1.buf.length := by rw [hs2.buf]
      have := hi2.olen
      have := hs1.out
      have := hs2.out
      by_cases hs : p2.out + (w.toNat + 1) * 8 > p2.olen
      · refine ⟨p2.rest, .inr ⟨w.toNat, hw, ?_, by omega, by rw [hr, h1b, hr2]⟩⟩
        intro hnil
        rw [hnil] at hlo
        simp at hlo
        omega
      · rw [if_neg hs] at h
        have hpl : Plain (odoRepeat (w.toNat + 1) >>= fun _ => checkError >>= fun _ => (Pure.pure false : M ODecomp Bool)) :=
          .bind (plain_odoRepeat _) fun _ => .bind plain_checkError fun _ => .pure _
        exact absurd ((hpl p2 he2).1 _ _ h) (by decide)
    rw [if_neg h1b] at h
    by_cases h1c : v.toNat = 0x1C
    · rw [if_pos h1c] at h
      have hpl : Plain (oemit (List.replicate 8 0#8) >>= fun _ => checkError >>= fun _ => (Pure.pure false : M ODecomp Bool)) :=
        .bind (plain_oemit _) fun _ => .bind plain_checkError fun _ => .pure _
      exact absurd ((hpl p1 he1).1 _ _ h) (by decide)
    · rw [if_neg h1c] at h
      cases h

theorem optIter_of_full (e : Endian) {p : ODecomp} (hp : optView.Inv p) (h : Full p) : ∃ p', optIter e p = .err .ENOSPC p' := by
  obtain ⟨hp, herr, h8⟩ := hp
  have hlo := hp.length_outp
  unfold optIter
  obtain ⟨R, ⟨o, ho, hlt, hr⟩ | ⟨r, hr64, hne, hlt, hr⟩⟩ := h
  · obtain ⟨v, p1, h1, hi1, hs1, hv, hr1, he1⟩ := readBits_of e (n := 5) (by omega) (by omega) hp (k := o) (by omega) hr
    have hb1 : p1.buf.length = p.buf.length := by rw [hs1.buf]
    have := hi1.olen
    have := hs1.out
    refine ⟨p1, ?_⟩
    rw [M.bind_ok h1, M.bind_ok (checkError_none (he1.trans herr)), M.get_bind_apply, if_pos ⟨by omega, by omega⟩]
    rfl
  · obtain ⟨v, p1, h1, hi1, hs1, hv, hr1, he1⟩ := readBits_of e (n := 5) (by omega) (by omega) hp (k := 0x1b) (by omega) hr
    have hb1 : p1.buf.length = p.buf.length := by rw [hs1.buf]
    obtain ⟨w, p2, h2, hi2, hs2, hw, hr2, he2⟩ := readBits_of e (n := 6) (by omega) (by omega) hi1 (k := r) (by omega) hr1
    have : p2.buf.length = p1.buf.length := by rw [hs2.buf]
    have := hi2.olen
    have := hs1.out
    have := hs2.out
    have hz : p2.out ≠ 0 := by
      intro h0
      apply hne
      apply List.eq_nil_of_length_eq_zero
      omega
    refine ⟨p2, ?_⟩
    rw [M.bind_ok h1, M.bind_ok (checkError_none (he1.trans herr)), M.get_bind_apply, if_neg (by omega), if_neg (by omega)]
    unfold odoOp
    rw [hv, optSwitch_none (by omega)]
    simp only [if_true]
    rw [M.bind_assoc', M.bind_ok h2, M.bind_assoc', M.bind_ok (checkError_none (he2.trans (he1.trans herr))), M.bind_assoc', M.get_bind_apply,
      if_neg hz, if_pos (by omega)]
    rfl

theorem optLoop_full (e : Endian) (fuel : Nat) {p p' : ODecomp} (hp : optView.Inv p)
    (h : M.doWhile (optIter e) fuel p = .err .ENOSPC p') :
    ∃ ops q, (∀ op ∈ ops, op.Valid) ∧ (∀ op ∈ ops, op.isShort = false) ∧ Run p.outp ops q.outp ∧ q.buf.length = p.buf.length ∧
      p.rest = ops.flatMap Op.bits ++ q.rest ∧ optView.Inv q ∧ Full q := by
  induction fuel generalizing p with
  | zero => cases h
  | succ fuel ih =>
    rw [M.doWhile] at h
    have hs := optIter_sound e hp
    cases hx : optIter e p with
    | ok b p1 =>
      rw [hx] at hs
      cases hs with
      | fin => rw [M.bind_ok hx, if_pos rfl] at h; cases h
      | @op _ op hi hb hv hsh hr hst =>
        rw [M.bind_ok hx, if_neg (by decide)] at h
        have hb : p1.buf.length = p.buf.length := hb
        have hr : p.rest = op.bits ++ p1.rest := hr
        have hst : OpStep p.outp op p1.outp := hst
        obtain ⟨ops, q, hvs, hss, hrun, hbl, hrest, hq, hfull⟩ := ih hi h
        exact ⟨op :: ops, q, forall_cons hv hvs, forall_cons hsh hss, .cons hst hrun, hbl.trans hb,
          by rw [hr, hrest, List.flatMap_cons, List.append_assoc], hq, hfull⟩
    | err er' p1 =>
      rw [M.bind_err hx] at h
      cases h
      exact ⟨[], p, by simp, by simp, .nil, rfl, by simp, hp, optIter_full e hp hx⟩
    | ub => rw [M.bind_def, hx] at h; cases h
    | timeout => rw [M.bind_def, hx] at h; cases h

theorem opt_full_iff (e : Endian) (ain aout : Nat) (hal : ain % 8 = 0 ∧ aout % 8 = 0) (inp buf : List Byte) :
    (∃ n b, optsw842Decompress e ain aout inp buf = .ret (some .ENOSPC) n b) ↔ Overflows (ODecomp.words inp) buf.length := by
  constructor
  · rintro ⟨n, b, h⟩
    unfold optsw842Decompress at h
    have hw := words_le inp
    have hres := (optIter_ok e).loop_res (8 * inp.length + 1) (optInit_inv inp buf)
      (by show (optInit inp buf).rest.length < _; rw [optInit_rest]; omega)
    generalize hx : M.doWhile (optIter e) (8 * inp.length + 1) (optInit inp buf) = x at hres
    cases hres with
    | @ok p1 ops hi hl hvs hsh hrest hrun =>
      rw [optTail e ain aout _ hal hx hi] at h
      have hpl : Plain (readBits e 32 >>= fun c => checkError >>= fun _ => (Pure.pure c : M ODecomp (BitVec 64))) :=
        .bind (plain_readBits _ _) fun _ => .bind plain_checkError fun _ => .pure _
      have hpl := (hpl p1 (.inl hi.2.1)).1
      cases hy : (readBits e 32 >>= fun c => checkError >>= fun _ => (Pure.pure c : M ODecomp (BitVec 64))) p1 with
      | ok c p2 =>
        rw [hy] at h
        simp only at h
        split at h
        · cases h
        · cases h
      | err er' p2 => rw [hy] at h; cases h; exact absurd (hpl _ _ hy) (by decide)
      | ub => rw [hy] at h; cases h
      | timeout => rw [hy] at h; cases h
    | @err er' p1 hl =>
      unfold optsw842DecompressF optBody at h
      rw [if_neg (by omega), M.bind_err hx] at h
      cases h
      obtain ⟨ops, q, hvs, hsh, hrun, hbl, hrest, hq, hfull⟩ := optLoop_full e _ (optInit_inv inp buf) hx
      rw [optInit_rest] at hrest
      have hrun : Run [] ops q.outp := hrun
      have hbl : q.buf.length = buf.length := hbl
      have hfit := (optIter_ok e).fits q hq
      have hfit : q.outp.length ≤ q.buf.length := hfit
      rw [hbl] at hfit
      obtain ⟨R, ⟨o, ho, hlt, hr⟩ | ⟨r, hr64, hne, hlt, hr⟩⟩ := hfull
      · exact ⟨ops, q.outp, R, ⟨hvs, hrun⟩, hsh, hfit, .inl ⟨o, ho, by omega, by rw [hrest, hr]⟩⟩
      · exact ⟨ops, q.outp, R, ⟨hvs, hrun⟩, hsh, hfit, .inr ⟨r, hr64, hne, by omega, by rw [hrest, hr]⟩⟩
  · rintro ⟨ops, d, rest, hexp, hsh, hd, hcase⟩
    obtain ⟨T, hT, hF⟩ : ∃ T, bytesBits (ODecomp.words inp) = ops.flatMap Op.bits ++ T ∧
        ∀ q : ODecomp, q.outp = d → q.rest = T → q.buf.length = buf.length → Full q := by
      rcases hcase with ⟨o, ho, hlt, hb⟩ | ⟨r, hr64, hne, hlt, hb⟩
      · exact ⟨_, hb, fun q h1 h2 h3 => ⟨rest, .inl ⟨o, ho, by rw [h1, h3]; exact hlt, h2⟩⟩⟩
      · exact ⟨_, hb, fun q h1 h2 h3 => ⟨rest, .inr ⟨r, hr64, by rw [h1]; exact hne, by rw [h1, h3]; exact hlt, h2⟩⟩⟩
    rcases (optIter_ok e).loop_run ops hexp.1 hsh (optInit_inv inp buf) (R := T)
      (by show (optInit inp buf).rest = _; rw [optInit_rest, hT]) (o := d) hexp.2 with ⟨-, p1, hi1, hl1, hr1, ho1, hf1⟩ | ⟨hlt, -⟩
    swap
    · have hlt : buf.length < d.length := hlt
      omega
    obtain ⟨p2, h2⟩ := optIter_of_full e hi1 (hF p1 ho1 hr1 hl1)
    have hlen := length_flatMap_bits ops
    have hbl := congrArg List.length hT
    have hw := words_le inp
    rw [List.length_append] at hbl
    obtain ⟨f, hf⟩ : ∃ f, 8 * inp.length + 1 = (f + 1) + ops.length := ⟨8 * inp.length - ops.length, by omega⟩
    refine ⟨0, p2.buf, ?_⟩
    unfold optsw842Decompress optsw842DecompressF optBody
    have hloop : M.doWhile (optIter e) (8 * inp.length + 1) (optInit inp buf) = .err .ENOSPC p2 := by
      rw [hf, hf1, M.doWhile, M.bind_err h2]
    rw [if_neg (by omega), M.bind_err hloop]

end Codes

end Lib842
