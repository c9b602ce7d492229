import Verif.Proofs.Grow
import Verif.Proofs.Expansion
/-!
# Lemmas about the work of the decompressors in terms of the room for the output (C118)
-/

namespace Lib842.Work
open Spec

/-- Every op produces at least one byte, and takes at most 16 bits for each. -/
theorem opStep_cost {a b : List Byte} {op : Op} (hv : op.Valid) (h : OpStep a op b) :
    a.length < b.length ∧ op.bits.length + 16 * a.length ≤ 16 * b.length := by
  cases hs : op.isShort with
  | false =>
    have := opStep_ge8 hv hs h
    have := op_le69 hv
    omega
  | true =>
    cases h with
    | @short bs =>
      have := hv.1
      simp only [Op.bits, List.length_append, length_bitsOf, length_bytesBits]
      omega
    | _ => cases hs

theorem decompLoop_room (e : Endian) (fuel : Nat) {p : Decomp} (hp : p.DInv) (hf : p.olen < fuel) : decompLoop e fuel p ≠ .timeout := by
  induction fuel generalizing p with
  | zero => omega
  | succ fuel ih =>
    rw [decompLoop]
    rcases nextBits_step e (n := 5) (by omega) (by omega) hp with
      ⟨v, p1, h1, hi1, hl1, hv, hr, ho1, hol, hout, hbuf⟩ | ⟨er, p1, h1, hl⟩
    · rw [M.bind_ok h1]
      by_cases hend : v.toNat = 0x1E
      · rw [if_pos hend]; intro h; cases h
      rw [if_neg hend]
      rcases decompOp_step e hv hend hi1 with (⟨_, p2, h2, hi2, hl2, op, hval, hb, hst⟩ | ⟨er, p2, h2, hl⟩) | ⟨hub, -⟩
      · rw [M.bind_ok h2]
        have hc := (opStep_cost hval hst).1
        rw [hi1.length_outp, hi2.length_outp] at hc
        have := hi1.o
        have := hi2.o
        exact ih hi2 (by omega)
      · rw [M.bind_err h2]; intro h; cases h
      · rw [M.bind_def, hub]; intro h; cases h
    · rw [M.bind_err h1]; intro h; cases h

theorem decompLoop_more (e : Endian) {p : Decomp} {f1 f2 : Nat} (h : decompLoop e f1 p ≠ .timeout) (h12 : f1 ≤ f2) :
    decompLoop e f2 p = decompLoop e f1 p := by
  induction f2, h12 using Nat.le_induction with
  | base => rfl
  | succ f2 _ ih => rw [decompLoop_mono e f2 p (by rw [ih]; exact h), ih]

theorem sw_loop_eq (e : Endian) (addr : Nat) (inp buf : List Byte) {f1 f2 : Nat}
    (h : decompLoop e f1 (decompInit inp buf) = decompLoop e f2 (decompInit inp buf)) :
    sw842DecompressF f1 e addr inp buf = sw842DecompressF f2 e addr inp buf := by
  unfold sw842DecompressF decompBody
  rw [M.bind_def, M.bind_def, h]

theorem sw_loop_any (e : Endian) (inp buf : List Byte) {f1 f2 : Nat} (h1 : decompLoop e f1 (decompInit inp buf) ≠ .timeout)
    (h2 : decompLoop e f2 (decompInit inp buf) ≠ .timeout) :
    decompLoop e f1 (decompInit inp buf) = decompLoop e f2 (decompInit inp buf) := by
  rcases Nat.le_total f1 f2 with h | h
  · exact (decompLoop_more e h1 h).symm
  · exact decompLoop_more e h2 h

theorem sw_loop_ends (e : Endian) (inp buf : List Byte) : decompLoop e (8 * inp.length + 1) (decompInit inp buf) ≠ .timeout := by
  have hres := decompLoop_res e (8 * inp.length + 1) (decompInit_inv inp buf) (by rw [decompInit_rest]; simpa using sw842Decompress_fuel inp)
  intro h
  rw [h] at hres
  cases hres

/-! ## The word-oriented decoders -/

variable {σ : Type}

theorem loop_room {V : DecView σ} {it : M σ Bool} (h : V.Ok it) (fuel : Nat) {p : σ} (hp : V.Inv p)
    (hf : (V.buf p).length < (V.outp p).length + 8 * fuel) : M.doWhile it fuel p ≠ .timeout := by
  induction fuel generalizing p with
  | zero => have := h.fits p hp; omega
  | succ fuel ih =>
    rw [M.doWhile]
    have hs := h.sound p hp
    generalize hx : it p = x at hs
    cases hs with
    | @fin p' hi hb ho hr => rw [M.bind_ok hx, if_pos rfl]; intro h; cases h
    | @op p1 op hi hb hv hsh hr hst =>
      rw [M.bind_ok hx, if_neg (by decide)]
      have := opStep_ge8 hv hsh hst
      exact ih hi (by omega)
    | err hb => rw [M.bind_err hx]; intro h; cases h

theorem doWhile_mono (it : M σ Bool) (fuel : Nat) (p : σ) (h : M.doWhile it fuel p ≠ .timeout) :
    M.doWhile it (fuel + 1) p = M.doWhile it fuel p := by
  induction fuel generalizing p with
  | zero => exact absurd rfl h
  | succ fuel ih =>
    rw [M.doWhile, M.doWhile, M.bind_def, M.bind_def]
    rw [M.doWhile, M.bind_def] at h
    cases hx : it p with
    | ok v p1 =>
      rw [hx] at h
      simp only at h ⊢
      cases v with
      | true => rfl
      | false => exact ih p1 h
    | _ => rfl

theorem doWhile_more (it : M σ Bool) {p : σ} {f1 f2 : Nat} (h : M.doWhile it f1 p ≠ .timeout) (h12 : f1 ≤ f2) :
    M.doWhile it f2 p = M.doWhile it f1 p := by
  induction f2, h12 using Nat.le_induction with
  | base => rfl
  | succ f2 _ ih => rw [doWhile_mono it f2 p (by rw [ih]; exact h), ih]

theorem doWhile_any (it : M σ Bool) {p : σ} {f1 f2 : Nat} (h1 : M.doWhile it f1 p ≠ .timeout) (h2 : M.doWhile it f2 p ≠ .timeout) :
    M.doWhile it f1 p = M.doWhile it f2 p := by
  rcases Nat.le_total f1 f2 with h | h
  · exact (doWhile_more it h1 h).symm
  · exact doWhile_more it h2 h

theorem opt_loop_eq (e : Endian) {ain aout : Nat} (hal : ain % 8 = 0 ∧ aout % 8 = 0) (inp buf : List Byte) {f1 f2 : Nat}
    (h : M.doWhile (optIter e) f1 (optInit inp buf) = M.doWhile (optIter e) f2 (optInit inp buf)) :
    optsw842DecompressF f1 e ain aout inp buf = optsw842DecompressF f2 e ain aout inp buf := by
  unfold optsw842DecompressF optBody
  rw [if_neg (by omega), if_neg (by omega), M.bind_def, M.bind_def, h]

theorem opt_loop_ends (e : Endian) (inp buf : List Byte) : M.doWhile (optIter e) (8 * inp.length + 1) (optInit inp buf) ≠ .timeout := by
  have hw := words_le inp
  have hres := (optIter_ok e).loop_res (8 * inp.length + 1) (optInit_inv inp buf)
    (by show (optInit inp buf).rest.length < _; rw [optInit_rest]; omega)
  intro h
  rw [h] at hres
  cases hres

/-! ## How much of the input is looked at -/

theorem first_action : ∀ row ∈ decompOps, ∃ a rest, row = a :: rest ∧ (a &&& 0x0f = 2 ∨ a &&& 0x0f = 4 ∨ a &&& 0x0f = 8) ∧
    (a &&& 0x70 = 0x20 ∨ a &&& 0x70 = 0x10) := by
  intro row h
  simp only [decompOps, List.mem_cons, List.not_mem_nil, or_false] at h
  rcases h with rfl | rfl | rfl | rfl | rfl | rfl | rfl | rfl | rfl | rfl | rfl | rfl | rfl | rfl | rfl | rfl | rfl | rfl | rfl | rfl | rfl | rfl |
    rfl | rfl | rfl | rfl <;> exact ⟨_, _, rfl, by decide, by decide⟩

theorem small_data (e : Endian) {n : Nat} {p : Decomp} (h : p.olen < n) : doData e n p = .err .ENOSPC p := by
  unfold doData
  rw [M.get_bind_apply, if_pos h]
  rfl

theorem small_indexN (e : Endian) {size bits fsize : Nat} (h1 : 1 ≤ bits) (h64 : bits ≤ 64) {p : Decomp} (hp : p.DInv) (h : p.olen < size)
    (hr : bits ≤ p.rest.length) : ∃ er q, doIndexN e size bits fsize p = .err er q ∧ er ≠ .EOVERFLOW := by
  unfold doIndexN
  rw [M.get_bind_apply]
  obtain ⟨v, p', hx, hi, hs, hv, hr⟩ := (nextBits_reads e bits h1 h64).ok p hp.r hr
  simp only []
  rw [M.bind_ok hx]
  split
  · exact ⟨_, _, rfl, by decide⟩
  · rw [M.get_bind_apply, if_pos (by rw [hs.olen]; omega)]
    exact ⟨_, _, rfl, by decide⟩

theorem small_index (e : Endian) {n : Nat} (hn : n = 2 ∨ n = 4 ∨ n = 8) {p : Decomp} (hp : p.DInv) (h : p.olen < 2) (hr : 9 ≤ p.rest.length) :
    ∃ er q, doIndex e n p = .err er q ∧ er ≠ .EOVERFLOW := by
  unfold doIndex
  rcases hn with rfl | rfl | rfl
  · rw [if_pos rfl]; exact small_indexN e (by omega) (by omega) hp h (by omega)
  · rw [if_neg (by decide), if_pos rfl]; exact small_indexN e (by omega) (by omega) hp (by omega) (by omega)
  · rw [if_neg (by decide), if_neg (by decide), if_pos rfl]; exact small_indexN e (by omega) (by omega) hp (by omega) (by omega)

/-- Without room for two bytes the end of the input is not reported if 32 bits are left. -/
theorem small_op (e : Endian) (op : Nat) {p : Decomp} (hp : p.DInv) (ho : p.olen < 2) (hr : 32 ≤ p.rest.length) (q : Decomp) :
    decompOp e op p ≠ .err .EOVERFLOW q := by
  unfold decompOp
  split
  · refine ((Needs.bind (needs_nextBits e (by decide) (by decide)) (l := 0) fun rep => ?_).mono (by omega) p hp.r hr).1 q
    exact .get fun p => .ite (.fail (by decide) _) (.ite (.fail (by decide) _) (needs_doRepeat _))
  split
  · rw [M.get_bind_apply, if_pos (by omega)]
    intro h; cases h
  split
  · obtain ⟨v, p', hx, hi, hs, hv, hrest⟩ := (nextBits_reads e 3 (by decide) (by decide)).ok p hp.r (by omega)
    rw [M.bind_ok hx]
    have hl : p.rest.length = 3 + p'.rest.length := by rw [hrest]; simp
    split
    · intro h; cases h
    · rw [M.get_bind_apply]
      split
      · intro h; cases h
      · rename_i hle
        rw [hs.olen] at hle
        exact ((needs_doShort e v.toNat) p' hi (by omega)).1 q
  · unfold doOp
    split
    · intro h; cases h
    · rw [M.bind_def]
      unfold M.access
      cases hrow : decompOps[op]? with
      | none => intro h; cases h
      | some row =>
        obtain ⟨a, rest, rfl, hsz, hk⟩ := first_action row (List.mem_of_getElem? hrow)
        simp only
        unfold doActions
        rcases hk with hk | hk
        · simp only [if_pos hk]
          rw [M.bind_err (small_data e (by omega : p.olen < a &&& 0x0f))]
          intro h; cases h
        · have hk' : ¬ a &&& 0x70 = 0x20 := by omega
          simp only [if_neg hk', if_pos hk]
          obtain ⟨er, q', hx, hne⟩ := small_index e hsz hp ho (by omega)
          rw [M.bind_err hx]
          intro h; cases h
          exact hne rfl

theorem decompLoop_eof16 (e : Endian) (fuel : Nat) {p p' : Decomp} (hp : p.DInv) (h : decompLoop e fuel p = .err .EOVERFLOW p') :
    p.rest.length < 16 * p.olen + 37 := by
  induction fuel generalizing p with
  | zero => cases h
  | succ fuel ih =>
    rw [decompLoop] at h
    rcases nextBits_step e (n := 5) (by omega) (by omega) hp with
      ⟨v, p1, h1, hi1, hl1, hv, hr, ho1, hol, hout, hbuf⟩ | ⟨er', p1, h1, hl⟩
    · rw [M.bind_ok h1] at h
      by_cases hend : v.toNat = 0x1E
      · rw [if_pos hend] at h; cases h
      rw [if_neg hend] at h
      have hrl : p.rest.length = 5 + p1.rest.length := by rw [hr]; simp
      rcases decompOp_step e hv hend hi1 with (⟨_, p2, h2, hi2, hl2, op, hval, hb, hst⟩ | ⟨er2, p2, h2, hl⟩) | ⟨hub, -⟩
      · rw [M.bind_ok h2] at h
        have := ih hi2 h
        have hc := (opStep_cost hval hst).2
        rw [hi1.length_outp, hi2.length_outp] at hc
        have hbl := congrArg List.length hb
        simp only [List.length_append, length_bitsOf] at hbl
        have := hi1.o
        have := hi2.o
        omega
      · rw [M.bind_err h2] at h
        cases h
        rcases Nat.lt_or_ge p.rest.length (16 * p.olen + 37) with hlt | hge
        · exact hlt
        · by_cases h2' : p.olen < 2
          · exact absurd h2 (small_op e v.toNat hi1 (by omega) (by omega) _)
          · exact absurd h2 ((needs_decompOp e v.toNat p1 hi1.r (by omega)).1 _)
      · rw [M.bind_def, hub] at h
        cases h
    · rcases Nat.lt_or_ge p.rest.length 5 with hlt | hge
      · omega
      · exact absurd h1 (by
          obtain ⟨v, q, hq, -⟩ := (nextBits_reads e 5 (by omega) (by omega)).ok p hp.r (by omega)
          rw [hq]
          intro hc
          cases hc)

theorem run_cost {a b : List Byte} {ops : List Op} (hv : ∀ op ∈ ops, op.Valid) (h : Run a ops b) :
    (ops.flatMap Op.bits).length + 16 * a.length ≤ 16 * b.length := by
  induction h with
  | nil => simp
  | @cons out op out' ops out'' h1 _ ih =>
    have h3 := (opStep_cost (hv op (List.mem_cons_self ..)) h1).2
    have h4 := ih fun o ho => hv o (List.mem_cons_of_mem _ ho)
    simp only [List.flatMap_cons, List.length_append]
    omega

theorem sw_eof16 (e : Endian) (addr : Nat) (inp buf b : List Byte) (n : Nat) (h : sw842Decompress e addr inp buf = .ret (some .EOVERFLOW) n b) :
    8 * inp.length < 16 * buf.length + 37 := by
  have hrl : (bytesBits inp).length = 8 * inp.length := length_bytesBits inp
  have hres := decompLoop_res e (8 * inp.length + 1) (decompInit_inv inp buf)
    (by rw [decompInit_rest]; simpa using sw842Decompress_fuel inp)
  unfold sw842Decompress at h
  cases hx : decompLoop e (8 * inp.length + 1) (decompInit inp buf) with
  | ok u p1 =>
    rw [hx] at hres
    cases hres with
    | @ok _ ops hi hl hvs hrest hrun =>
      rw [decompInit_rest] at hrest
      rw [decompInit_buf] at hl
      rw [decompTail e addr _ hx hi hl] at h
      rcases nextBits_step e (n := 32) (by omega) (by omega) hi with
        ⟨v, p2, h1, hi1, hl1, hv, hr, ho1, hol, hout, hbuf⟩ | ⟨er', p2, h1, hl1⟩
      · rw [h1] at h
        simp only at h
        split at h
        · cases h
        · split at h <;> cases h
      · have hc := run_cost hvs hrun
        rw [decompInit_outp, hi.length_outp] at hc
        have := hi.o
        have hll := congrArg List.length hrest
        simp only [List.length_append, length_bitsOf] at hll
        simp only [List.length_nil] at hc
        by_cases hlt : p1.rest.length < 32
        · omega
        · obtain ⟨v, q, hq, -⟩ := (nextBits_reads e 32 (by omega) (by omega)).ok p1 hi.r (by omega)
          rw [hq] at h1
          cases h1
  | err er' p1 =>
    unfold sw842DecompressF decompBody at h
    rw [M.bind_err hx] at h
    cases h
    have := decompLoop_eof16 e _ (decompInit_inv inp buf) hx
    rw [decompInit_rest] at this
    have ho : (decompInit inp buf).olen = buf.length := rfl
    omega
  | ub =>
    unfold sw842DecompressF decompBody at h
    rw [M.bind_def, hx] at h
    cases h
  | timeout =>
    unfold sw842DecompressF decompBody at h
    rw [M.bind_def, hx] at h
    cases h

/-! ## The longest streams -/

/-- One op for every byte. -/
def single (d : List Byte) : List Op := d.map fun b => .short [b]

theorem single_valid (d : List Byte) : ∀ op ∈ single d, op.Valid := by
  intro op h
  obtain ⟨b, -, rfl⟩ := List.mem_map.1 h
  exact ⟨Nat.le_refl _, by simp⟩

theorem single_run (d out : List Byte) : Run out (single d) (out ++ d) := by
  induction d generalizing out with
  | nil => rw [List.append_nil]; exact .nil
  | cons b d ih =>
    have := ih (out ++ [b])
    rw [List.append_assoc] at this
    exact .cons .short this

theorem single_bits (d : List Byte) : ((single d).flatMap Op.bits).length = 16 * d.length := by
  induction d with
  | nil => rfl
  | cons b d ih =>
    show (Op.bits (.short [b]) ++ (single d).flatMap Op.bits).length = _
    rw [List.length_append, ih]
    simp [Op.bits]
    omega

theorem single_stream (d : List Byte) : ∃ s : List Byte, s.length = 2 * d.length + 5 ∧
    bytesBits s = (single d).flatMap Op.bits ++ trailer d ++ List.replicate 3 false := by
  obtain ⟨s, h1, h2⟩ := exists_bytes (2 * d.length + 5) ((single d).flatMap Op.bits ++ trailer d ++ List.replicate 3 false) (by
    simp only [List.length_append, single_bits, trailer, length_bitsOf, List.length_replicate]
    omega)
  exact ⟨s, h2, h1⟩

/-- With `n` iterations the loop has not seen the end of the stream. -/
theorem single_steps (e : Endian) (addr : Nat) {d s buf : List Byte} {R : List Bool} (hs : bytesBits s = (single d).flatMap Op.bits ++ R)
    (hb : d.length ≤ buf.length) : sw842DecompressF d.length e addr s buf = .timeout := by
  rcases decompLoop_run e (single d) (single_valid d) (decompInit_inv s buf) (by rw [decompInit_rest]; exact hs)
    (by rw [decompInit_outp]; exact single_run d []) with ⟨-, p', -, -, -, -, hf⟩ | ⟨hlt, -⟩
  · have h0 := hf 0
    rw [Nat.zero_add, show (single d).length = d.length from List.length_map ..] at h0
    unfold sw842DecompressF decompBody
    rw [M.bind_def, h0]
    rfl
  · rw [decompInit_buf] at hlt
    simp at hlt
    omega

/-- Without the last byte the checksum is incomplete. -/
theorem single_cut (e : Endian) (addr : Nat) {d s buf : List Byte} {R : List Bool}
    (hs : bytesBits s = (single d).flatMap Op.bits ++ (bitsOf 5 0x1e ++ R)) (hR : R.length < 32) (hb : d.length ≤ buf.length) :
    ∃ b, sw842Decompress e addr s buf = .ret (some .EOVERFLOW) 0 b := by
  have hlen : 5 * d.length ≤ 8 * s.length := by
    have := congrArg List.length hs
    rw [length_bytesBits, List.length_append, single_bits] at this
    omega
  have h5 : 16 * d.length + 5 + R.length = 8 * s.length := by
    have := congrArg List.length hs
    rw [length_bytesBits, List.length_append, single_bits, List.length_append, length_bitsOf] at this
    omega
  rcases decompLoop_run e (single d) (single_valid d) (decompInit_inv s buf) (by rw [decompInit_rest]; exact hs)
    (by rw [decompInit_outp]; exact single_run d []) with ⟨-, p', hi, hl, hr, ho, hf⟩ | ⟨hlt, -⟩
  · obtain ⟨v, p2, h1, hv, hi2, hr2, ho2, hol2, hout2, hb2⟩ := nextBits_of e (n := 5) (by omega) (by omega) hi (show 0x1e < 2 ^ 5 by omega) hr
    have hx : decompLoop e (8 * s.length + 1) (decompInit s buf) = .ok () p2 := by
      have := hf (8 * s.length - d.length + 1)
      rw [show (single d).length = d.length from List.length_map ..,
        show 8 * s.length - d.length + 1 + d.length = 8 * s.length + 1 by omega] at this
      rw [this, decompLoop, M.bind_ok h1, if_pos hv]
      rfl
    unfold sw842Decompress
    rw [decompTail e addr _ hx hi2 (by rw [hb2, hl, decompInit_buf])]
    obtain ⟨p3, h3, -, -⟩ := (nextBits_reads e 32 (by omega) (by omega)).eof p2 hi2.r (by rw [hr2]; exact hR)
    rw [h3]
    exact ⟨_, rfl⟩
  · rw [decompInit_buf] at hlt
    simp at hlt
    omega

/-- A stream of `n` zero words. -/
theorem zeros_stream (n : Nat) : ∃ s : List Byte, 5 * n + 37 ≤ 8 * s.length ∧ s.length % 8 = 0 ∧
    ∃ R, bytesBits s = (List.replicate n Op.zeros).flatMap Op.bits ++ trailer (List.replicate (8 * n) 0#8) ++ R := by
  have hl : ((List.replicate n Op.zeros).flatMap Op.bits).length = 5 * n := by
    induction n with
    | zero => rfl
    | succ n ih => rw [List.replicate_succ, List.flatMap_cons, List.length_append, ih]; simp [Op.bits]; omega
  obtain ⟨s, h1, h2⟩ := exists_bytes (8 * (n + 1)) ((List.replicate n Op.zeros).flatMap Op.bits ++ trailer (List.replicate (8 * n) 0#8) ++
      List.replicate (59 * n + 27) false) (by
    simp only [List.length_append, hl, trailer, length_bitsOf, List.length_replicate]
    omega)
  exact ⟨s, by omega, by omega, _, h1⟩

theorem zeros_run (n : Nat) (out : List Byte) : Run out (List.replicate n Op.zeros) (out ++ List.replicate (8 * n) 0#8) := by
  induction n generalizing out with
  | zero => simpa using Run.nil
  | succ n ih =>
    have := ih (out ++ List.replicate 8 0#8)
    rw [List.append_assoc, List.replicate_append_replicate, show 8 + 8 * n = 8 * (n + 1) by omega] at this
    exact .cons .zeros this

theorem zeros_valid (n : Nat) : ∀ op ∈ List.replicate n Op.zeros, op.Valid ∧ op.isShort = false := by
  intro op h
  rw [List.eq_of_mem_replicate h]
  exact ⟨trivial, rfl⟩

theorem zeros_steps (e : Endian) {ain aout : Nat} (hal : ain % 8 = 0 ∧ aout % 8 = 0) {n : Nat} {s buf : List Byte} {R : List Bool}
    (h8 : s.length % 8 = 0) (hs : bytesBits s = (List.replicate n Op.zeros).flatMap Op.bits ++ R) (hb : 8 * n ≤ buf.length) :
    optsw842DecompressF n e ain aout s buf = .timeout := by
  have hw : ODecomp.words s = s := by
    unfold ODecomp.words
    rw [List.take_of_length_le (by omega)]
  rcases (optIter_ok e).loop_run (List.replicate n Op.zeros) (fun o h => (zeros_valid n o h).1) (fun o h => (zeros_valid n o h).2)
    (optInit_inv s buf) (R := R) (by show (optInit s buf).rest = _; rw [optInit_rest, hw]; exact hs)
    (o := List.replicate (8 * n) 0#8) (zeros_run n []) with ⟨-, p', -, -, -, -, hf⟩ | ⟨hlt, -⟩
  · have h0 := hf 0
    rw [Nat.zero_add, List.length_replicate] at h0
    unfold optsw842DecompressF optBody
    rw [if_neg (by omega), M.bind_def, h0]
    rfl
  · have : (optView.buf (optInit s buf)).length = buf.length := rfl
    simp at hlt
    omega

end Lib842.Work
