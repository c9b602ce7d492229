import Verif.Proofs.WorkBound
/-!
# How much of its input the optimised decompressor looks at
-/

namespace Lib842.Work
open Spec

/-- The same state with an input that ends after `K` bytes. -/
def ocut (K : Nat) (p : ODecomp) : ODecomp := { p with inp := p.inp.take K, ilen := K }

def ocutO (K : Nat) {α : Type} : Outcome ODecomp α → Outcome ODecomp α
  | .ok a p => .ok a (ocut K p)
  | .err e p => .err e (ocut K p)
  | .ub => .ub
  | .timeout => .timeout

structure CutOk (K : Nat) (I : List Byte) (p : ODecomp) : Prop where
  inp : p.inp = I
  ilen : p.ilen = I.length
  le : K ≤ I.length
  k8 : K % 8 = 0
  b : p.bits ≤ 64 * p.word

/-- `x` looks at the next `k` bits at most. -/
def OSim (K : Nat) (I : List Byte) (k : Nat) {α : Type} (x : M ODecomp α) : Prop :=
  ∀ p, CutOk K I p → 64 * p.word + k ≤ 8 * K + p.bits → x (ocut K p) = ocutO K (x p) ∧
    ∀ a p', x p = .ok a p' → CutOk K I p' ∧ 64 * p'.word + p.bits ≤ 64 * p.word + p'.bits + k

namespace OSim
variable {K : Nat} {I : List Byte} {α β : Type}

theorem pure (a : α) : OSim K I 0 (Pure.pure a : M ODecomp α) := by
  intro p hp hk
  refine ⟨rfl, fun b p' h => ?_⟩
  cases h
  exact ⟨hp, by omega⟩

theorem fail (er : Errno) (k : Nat) : OSim K I k (M.fail er : M ODecomp α) := by
  intro p hp hk
  exact ⟨rfl, fun b p' h => by cases h⟩

theorem mono {x : M ODecomp α} {k l : Nat} (h : OSim K I k x) (hkl : k ≤ l) : OSim K I l x := by
  intro p hp hk
  obtain ⟨h1, h2⟩ := h p hp (by omega)
  exact ⟨h1, fun a p' ha => ⟨(h2 a p' ha).1, by have := (h2 a p' ha).2; omega⟩⟩

theorem bind {x : M ODecomp α} {f : α → M ODecomp β} {k l : Nat} (hx : OSim K I k x) (hf : ∀ a, OSim K I l (f a)) : OSim K I (k + l) (x >>= f) := by
  intro p hp hk
  obtain ⟨h1, h2⟩ := hx p hp (by omega)
  rw [M.bind_def, M.bind_def, h1]
  cases hr : x p with
  | ok a p1 =>
    obtain ⟨g1, g2⟩ := h2 a p1 hr
    obtain ⟨j1, j2⟩ := hf a p1 g1 (by omega)
    refine ⟨j1, fun b p' hb => ⟨(j2 b p' hb).1, ?_⟩⟩
    have := (j2 b p' hb).2
    omega
  | err er p1 => exact ⟨rfl, fun b p' h => by cases h⟩
  | ub => exact ⟨rfl, fun b p' h => by cases h⟩
  | timeout => exact ⟨rfl, fun b p' h => by cases h⟩

theorem bind0 {x : M ODecomp α} {f : α → M ODecomp β} {l : Nat} (hx : OSim K I 0 x) (hf : ∀ a, OSim K I l (f a)) : OSim K I l (x >>= f) := by
  have := bind hx hf
  rwa [Nat.zero_add] at this

theorem bindL {x : M ODecomp α} {f : α → M ODecomp β} {k : Nat} (hx : OSim K I k x) (hf : ∀ a, OSim K I 0 (f a)) : OSim K I k (x >>= f) := bind hx hf

theorem get {f : ODecomp → M ODecomp β} {k : Nat} (he : ∀ p, f (ocut K p) = f p) (hf : ∀ p, OSim K I k (f p)) : OSim K I k (M.get >>= f) := by
  intro p hp hk
  rw [M.get_bind_apply, M.get_bind_apply, he]
  exact hf p p hp hk

theorem ite {c : Prop} [Decidable c] {x y : M ODecomp α} {k : Nat} (hx : OSim K I k x) (hy : OSim K I k y) : OSim K I k (if c then x else y) := by
  split
  · exact hx
  · exact hy

theorem access {f : ODecomp → Option α} (he : ∀ p, f (ocut K p) = f p) : OSim K I 0 (M.access f) := by
  intro p hp hk
  unfold M.access
  rw [he]
  cases f p with
  | none => exact ⟨rfl, fun b p' h => by cases h⟩
  | some a =>
    refine ⟨rfl, fun b p' h => ?_⟩
    cases h
    exact ⟨hp, by omega⟩

theorem modify {f : ODecomp → ODecomp} (he : ∀ p, f (ocut K p) = ocut K (f p))
    (h1 : ∀ p, (f p).inp = p.inp ∧ (f p).ilen = p.ilen ∧ (f p).word = p.word ∧ (f p).bits = p.bits) : OSim K I 0 (M.modify f) := by
  intro p hp hk
  unfold M.modify
  rw [he]
  refine ⟨rfl, fun b p' h => ?_⟩
  cases h
  obtain ⟨a1, a2, a3, a4⟩ := h1 p
  exact ⟨⟨by rw [a1]; exact hp.inp, by rw [a2]; exact hp.ilen, hp.le, hp.k8, by rw [a3, a4]; exact hp.b⟩, by omega⟩

theorem emit (bs : List Byte) : OSim K I 0 (oemit bs) := by
  unfold oemit
  refine bind0 ?_ fun _ => modify (fun _ => rfl) fun _ => ⟨rfl, rfl, rfl, rfl⟩
  intro p hp hk
  unfold M.update
  have h1 : (ocut K p).buf = p.buf := rfl
  have h2 : (ocut K p).out = p.out := rfl
  simp only [h1, h2]
  cases writeBytes p.buf p.out bs with
  | none => exact ⟨rfl, fun b p' h => by cases h⟩
  | some b =>
    refine ⟨rfl, fun b p' h => ?_⟩
    cases h
    exact ⟨⟨hp.inp, hp.ilen, hp.le, hp.k8, hp.b⟩, by simp⟩

theorem setError (er : Errno) : OSim K I 0 (M.modify (ODecomp.setError er)) := by
  refine modify (fun p => ?_) fun p => ?_
  · obtain ⟨a, b, c, d, f, g, er', h, i⟩ := p
    cases er' <;> rfl
  · obtain ⟨a, b, c, d, f, g, er', h, i⟩ := p
    cases er' <;> exact ⟨rfl, rfl, rfl, rfl⟩

theorem load_take (e : Endian) (m : List Byte) {i : Nat} (h : i + 8 ≤ K) : load64 e (m.take K) i = load64 e m i := by
  unfold load64 readBytes
  rw [List.length_take]
  by_cases hm : i + 8 ≤ m.length
  · rw [if_pos (by omega), if_pos hm, List.drop_take, List.take_take, Nat.min_eq_left (by omega)]
  · rw [if_neg (by omega), if_neg hm]

theorem readBits (e : Endian) {n : Nat} : OSim K I n (Lib842.readBits e n) := by
  intro p hp hk
  obtain ⟨h0, h1, h2, h3, h4⟩ := hp
  have hb : (ocut K p).bits = p.bits := rfl
  have hbu : (ocut K p).buffer = p.buffer := rfl
  have hw : (ocut K p).word = p.word := rfl
  unfold Lib842.readBits
  rw [M.get_bind_apply, M.get_bind_apply, hb, hbu]
  by_cases hn : p.bits < n
  · rw [if_pos hn]
    have hK : (p.word + 1) * 8 ≤ K := by omega
    unfold readWord
    simp only [Bind.bind, M.bind, M.get, hw]
    rw [if_neg (show ¬ (p.word + 1) * 8 > (ocut K p).ilen by show ¬ _ > K; omega), if_neg (by omega)]
    simp only [M.bind, M.access]
    rw [show load64 e (ocut K p).inp (8 * (ocut K p).word) = load64 e p.inp (8 * p.word) from load_take e p.inp (by omega)]
    cases load64 e p.inp (8 * p.word) with
    | none => exact ⟨rfl, fun b p' h => by cases h⟩
    | some w =>
      simp only [M.modify, Pure.pure, M.pure]
      cases hm : winMiss p.buffer p.bits n (swapBe64 e w) with
      | none => exact ⟨rfl, fun b p' h => by cases h⟩
      | some r =>
        have hr : r.2.2 = p.bits + 64 - n := by
          unfold winMiss at hm
          split at hm
          · cases hm; rfl
          · cases hm
        refine ⟨rfl, fun b p' h => ?_⟩
        cases h
        refine ⟨⟨h0, h1, h2, h3, ?_⟩, ?_⟩
        · show r.2.2 ≤ 64 * (p.word + 1); omega
        · show 64 * (p.word + 1) + p.bits ≤ 64 * p.word + r.2.2 + n; omega
  · rw [if_neg hn]
    simp only [Bind.bind, M.bind, M.access, hb, hbu]
    cases hm : winHit p.buffer p.bits n with
    | none => exact ⟨rfl, fun b p' h => by cases h⟩
    | some r =>
      have hr : r.2.2 = p.bits - n := by
        unfold winHit at hm
        split at hm
        · cases hm; rfl
        · cases hm
      simp only [M.modify, Pure.pure, M.pure]
      refine ⟨rfl, fun b p' h => ?_⟩
      cases h
      refine ⟨⟨h0, h1, h2, h3, ?_⟩, ?_⟩
      · show r.2.2 ≤ 64 * p.word; omega
      · show 64 * p.word + p.bits ≤ 64 * p.word + r.2.2 + n; omega

theorem doData (e : Endian) (n : Nat) (v : BitVec 64) : OSim K I 0 (odoData e n v) := by
  unfold odoData
  exact .ite (emit _) (.ite (emit _) (.ite (emit _) (modify (fun _ => rfl) fun _ => ⟨rfl, rfl, rfl, rfl⟩)))

theorem doIndex (size index fsize : Nat) : OSim K I 0 (odoIndex size index fsize) := by
  unfold odoIndex
  exact get (fun _ => rfl) fun p => .ite (setError _) (.bind0 (access fun _ => rfl) fun _ => emit _)

theorem steps (e : Endian) (rep : BitVec 64) : ∀ l : List OptStep, OSim K I 0 (optSteps e rep l)
  | [] => .pure _
  | s :: ss => by
    rw [optSteps]
    refine .bind0 ?_ fun _ => steps e rep ss
    cases s with
    | data n sh w => exact .bind0 (access fun _ => rfl) fun _ => doData e n _
    | index n sh w f => exact .bind0 (access fun _ => rfl) fun _ => doIndex n _ f

theorem checkErr : OSim K I 0 checkError := by
  unfold checkError
  refine get (fun _ => rfl) fun p => ?_
  cases p.errorcode with
  | none => exact .pure _
  | some er => exact .fail _ _

theorem doRepeat : ∀ n : Nat, OSim K I 0 (odoRepeat n)
  | 0 => .pure _
  | n + 1 => by
    rw [odoRepeat]
    exact .bind0 (access fun _ => rfl) fun _ => .bind0 (emit _) fun _ => doRepeat n

theorem doOpHigh (e : Endian) {op : Nat} (h : 26 ≤ op) : OSim K I 6 (odoOp e op) := by
  unfold odoOp
  rw [optSwitch_none h]
  refine .ite (.bind (l := 0) (readBits e) fun rep => .bind0 checkErr fun _ => get (fun _ => rfl) fun p => ?_)
    (.ite ((emit _).mono (by omega)) (.fail _ _))
  exact .ite (.fail _ _) (.ite (.fail _ _) (doRepeat _))

theorem widths : ∀ r ∈ optSwitch, r.1 ≤ 64 := by decide

theorem doOp (e : Endian) (op : Nat) : OSim K I 64 (odoOp e op) := by
  by_cases h : 26 ≤ op
  · exact (doOpHigh e h).mono (by omega)
  · unfold odoOp
    cases hs : optSwitch[op]? with
    | none => rw [List.getElem?_eq_none_iff] at hs; exact absurd hs (by simp [optSwitch]; omega)
    | some r =>
      obtain ⟨n, st⟩ := r
      have := widths _ (List.mem_of_getElem? hs)
      exact ((readBits e).bindL fun rep => steps e rep st).mono this

theorem iter (e : Endian) : OSim K I 69 (optIter e) := by
  unfold optIter
  refine .bind (k := 5) (l := 64) (readBits e) fun op => .bind0 checkErr fun _ => get (fun _ => rfl) fun p => ?_
  exact .ite (.fail _ _) (.ite ((OSim.pure _).mono (by omega)) (.bindL (doOp e _) fun _ => .bind0 checkErr fun _ => .pure _))

end OSim

/-- When the output is full, an iteration looks at 11 bits at most. -/
theorem iter_full {K : Nat} {I : List Byte} (e : Endian) {p : ODecomp} (hp : CutOk K I p) (hi : p.OInv) (hb : 64 * p.word + 11 ≤ 8 * K + p.bits) (hfull : p.olen < p.out + 8) :
    optIter e (ocut K p) = ocutO K (optIter e p) ∧ ∀ a p', optIter e p = .ok a p' → CutOk K I p' := by
  unfold optIter
  obtain ⟨h1, h2⟩ := OSim.readBits (K := K) (I := I) e (n := 5) p hp (by omega)
  obtain ⟨v, p1, hr, hi1, hs1, -⟩ := readBits_spec e (n := 5) (by omega) (by omega) hi
  obtain ⟨g1, g2⟩ := h2 v p1 hr
  rw [M.bind_def, M.bind_def, h1, hr]
  simp only [ocutO]
  by_cases hv : 26 ≤ v.toNat
  · have key : OSim K I 6 (checkError >>= fun _ => M.get >>= fun p =>
        if (v.toNat < 0x1a ∨ v.toNat = 0x1C) ∧ p.out + 8 > p.olen then M.fail .ENOSPC
        else if v.toNat = 0x1E then Pure.pure true
        else odoOp e v.toNat >>= fun _ => checkError >>= fun _ => Pure.pure false) :=
      .bind0 .checkErr fun _ => .get (fun _ => rfl) fun p => .ite (.fail _ _) (.ite ((OSim.pure _).mono (by omega))
        (.bindL (.doOpHigh e hv) fun _ => .bind0 .checkErr fun _ => .pure _))
    obtain ⟨k1, k2⟩ := key p1 g1 (by omega)
    exact ⟨k1, fun a p' h => (k2 a p' h).1⟩
  · have ho : p1.olen < p1.out + 8 := by rw [hs1.out, hs1.olen]; exact hfull
    have hc : ∀ q : ODecomp, q.olen < q.out + 8 → (checkError >>= fun _ => M.get >>= fun p =>
        if (v.toNat < 0x1a ∨ v.toNat = 0x1C) ∧ p.out + 8 > p.olen then M.fail .ENOSPC
        else if v.toNat = 0x1E then Pure.pure true
        else odoOp e v.toNat >>= fun _ => checkError >>= fun _ => Pure.pure false) q =
        (.err (q.errorcode.getD .ENOSPC) q : Outcome ODecomp Bool) := by
      intro q hq
      unfold checkError
      rw [M.bind_def, M.get_bind_apply]
      cases hq' : q.errorcode with
      | some er => rfl
      | none =>
        show (M.get >>= _) q = _
        rw [M.get_bind_apply, if_pos ⟨.inl (by omega), by omega⟩]; rfl
    refine ⟨(hc (ocut K p1) ho).trans ?_, fun a p' h => ?_⟩
    · rw [hc p1 ho]; rfl
    · rw [hc p1 ho] at h; cases h

theorem rest_used {p : ODecomp} (h : p.OInv) : p.rest.length + 64 * p.word = p.bits + 64 * (p.inp.length / 8) := by
  have := h.word
  simp [ODecomp.rest, ODecomp.words]
  omega

theorem loop_cut {K : Nat} {I : List Byte} (e : Endian) (fuel : Nat) {p : ODecomp} (hv : optView.Inv p) (hp : CutOk K I p)
    (hK : 69 * (p.olen / 8) + 37 ≤ 8 * K) (hu : 64 * p.word ≤ p.bits + 69 * (p.out / 8)) :
    M.doWhile (optIter e) fuel (ocut K p) = ocutO K (M.doWhile (optIter e) fuel p) ∧
    ∀ p', M.doWhile (optIter e) fuel p = .ok () p' → CutOk K I p' ∧ 64 * p'.word + 32 ≤ 8 * K + p'.bits := by
  induction fuel generalizing p with
  | zero => exact ⟨rfl, fun p' h => by cases h⟩
  | succ fuel ih =>
    have hs := (optIter_ok e).sound p hv
    have hol : p.olen = p.buf.length := hv.1.olen
    have hout : p.out ≤ p.buf.length := hv.1.out
    have h8 := hv.2.2
    have hsim : optIter e (ocut K p) = ocutO K (optIter e p) ∧ ∀ a p', optIter e p = .ok a p' → CutOk K I p' := by
      by_cases hf : p.olen < p.out + 8
      · exact iter_full e hp hv.1 (by omega) hf
      · obtain ⟨a1, a2⟩ := OSim.iter e p hp (by omega)
        exact ⟨a1, fun a p' h => (a2 a p' h).1⟩
    obtain ⟨s1, s2⟩ := hsim
    rw [M.doWhile, M.bind_def, M.bind_def, s1]
    generalize hx : optIter e p = x at hs
    cases hs with
    | @fin p' hi hb ho hr =>
      have hu' : p'.bits + 5 + 64 * p.word = 64 * p'.word + p.bits := by
        have r1 := rest_used hv.1
        have r2 := rest_used hi.1
        have hr' : p.rest = bitsOf 5 0x1e ++ p'.rest := hr
        rw [hr', List.length_append, length_bitsOf, hp.inp] at r1
        rw [(s2 _ _ hx).inp] at r2
        omega
      refine ⟨rfl, fun q h => ?_⟩
      cases h
      exact ⟨s2 _ _ hx, by omega⟩
    | @op p1 op hi hb hval hsh hr hst =>
      have h9 : p.out + 8 ≤ p1.out := by
        have := opStep_ge8 hval hsh hst
        rw [show (optView.outp p).length = p.out from hv.1.length_outp, show (optView.outp p1).length = p1.out from hi.1.length_outp] at this
        exact this
      have hb' : p1.buf.length = p.buf.length := hb
      have ho1 : p1.olen = p1.buf.length := hi.1.olen
      have hout1 : p1.out ≤ p1.buf.length := hi.1.out
      have hu' := ((OSim.iter e p hp (by omega)).2 _ _ hx).2
      exact ih hi (s2 _ _ hx) (by rw [ho1, hb', ← hol]; exact hK) (by omega)
    | err hb => exact ⟨rfl, fun p' h => by cases h⟩

/-- The checks after the loop look at the 32 bits of the checksum. -/
theorem opt_tail {K : Nat} {I : List Byte} (e : Endian) (aout : Nat) : OSim K I 32 (readBits e 32 >>= fun crc => checkError >>= fun _ => M.get >>= fun p =>
    (M.access fun p => crc32be e aout 0#32 p.buf p.out) >>= fun want => if crc ≠ want.setWidth 64 then M.fail .EINVAL else Pure.pure p.out) :=
  .bindL (.readBits e) fun _ => .bind0 .checkErr fun _ => .get (fun _ => rfl) fun _ => .bind0 (.access fun _ => rfl) fun _ =>
    .ite (.fail _ _) (.pure _)

theorem optF_cut (e : Endian) {ain aout : Nat} (hal : ain % 8 = 0 ∧ aout % 8 = 0) (fuel : Nat) {K : Nat} {inp buf : List Byte} (h8 : K % 8 = 0)
    (hle : K ≤ inp.length) (hK : 69 * (buf.length / 8) + 37 ≤ 8 * K) :
    optsw842DecompressF fuel e ain aout (inp.take K) buf = optsw842DecompressF fuel e ain aout inp buf := by
  have hi : optInit (inp.take K) buf = ocut K (optInit inp buf) := by
    unfold optInit ocut
    rw [List.length_take, Nat.min_eq_left hle]
  obtain ⟨h1, h2⟩ := loop_cut (K := K) (I := inp) e fuel (optInit_inv inp buf) ⟨rfl, rfl, hle, h8, by simp [optInit]⟩ hK (by simp [optInit])
  have hbody : optBody e aout fuel (ocut K (optInit inp buf)) = ocutO K (optBody e aout fuel (optInit inp buf)) := by
    unfold optBody
    rw [M.bind_def, M.bind_def, h1]
    cases hl : M.doWhile (optIter e) fuel (optInit inp buf) with
    | ok a p =>
      obtain ⟨g1, g2⟩ := h2 p hl
      exact (opt_tail e aout p g1 g2).1
    | err er p => rfl
    | ub => rfl
    | timeout => rfl
  unfold optsw842DecompressF
  rw [if_neg (by omega), if_neg (by omega), hi, hbody]
  cases optBody e aout fuel (optInit inp buf) <;> rfl

/-! ## A stream that needs all of it -/

/-- Eight literal bytes per op -/
def raw : Nat → List Byte → List Op
  | 0, _ => []
  | n + 1, d => .template 0 [.data (d.take 8)] :: raw n (d.drop 8)

theorem raw_valid (n : Nat) (d : List Byte) (h : d.length = 8 * n) : ∀ op ∈ raw n d, op.Valid ∧ op.isShort = false := by
  induction n generalizing d with
  | zero => intro op h; cases h
  | succ n ih =>
    intro op ho
    rcases List.mem_cons.1 ho with rfl | ho
    · refine ⟨⟨?_, fun a ha => ?_⟩, rfl⟩
      · have : (d.take 8).length = 8 := by rw [List.length_take]; omega
        simp only [List.map_cons, List.map_nil, Arg.action, this]
        rfl
      · rw [List.mem_singleton.1 ha]; trivial
    · exact ih _ (by rw [List.length_drop]; omega) op ho

theorem raw_run (n : Nat) (d out : List Byte) (h : d.length = 8 * n) : Run out (raw n d) (out ++ d) := by
  induction n generalizing d out with
  | zero =>
    rw [List.length_eq_zero_iff.1 (by omega : d.length = 0), List.append_nil]
    exact .nil
  | succ n ih =>
    have := ih (d.drop 8) (out ++ d.take 8) (by rw [List.length_drop]; omega)
    rw [List.append_assoc, List.take_append_drop] at this
    exact .cons (.template (.cons .data .nil)) this

theorem raw_bits (n : Nat) (d : List Byte) (h : d.length = 8 * n) : ((raw n d).flatMap Op.bits).length = 69 * n := by
  induction n generalizing d with
  | zero => rfl
  | succ n ih =>
    rw [raw, List.flatMap_cons, List.length_append, ih _ (by rw [List.length_drop]; omega)]
    simp only [Op.bits, List.flatMap_cons, List.flatMap_nil, Arg.bits, List.append_nil, List.length_append, length_bitsOf, length_bytesBits, List.length_take]
    omega

theorem raw_stream (n : Nat) (d : List Byte) (h : d.length = 8 * n) : ∃ s : List Byte, s.length = 8 * ((69 * n + 100) / 64) ∧
    ∃ R, bytesBits s = (raw n d).flatMap Op.bits ++ trailer d ++ R := by
  obtain ⟨s, h1, h2⟩ := exists_bytes (8 * ((69 * n + 100) / 64)) ((raw n d).flatMap Op.bits ++ trailer d ++
      List.replicate (64 * ((69 * n + 100) / 64) - (69 * n + 37)) false) (by
    simp only [List.length_append, raw_bits n d h, trailer, length_bitsOf, List.length_replicate]
    omega)
  exact ⟨s, h2, _, h1⟩

end Lib842.Work
