import Verif.Proofs.OclKernel
/-!
# The OpenCL decoder without a length of the input

A run that succeeds with a length and does not look beyond it is the same with a greater length.
-/

namespace Lib842
open Spec

/-- The state with another input length. -/
def OclP.long (L : Nat) (p : OclP) : OclP := { p with ilen := L }

/-- A successful run of `m` that leaves the look-ahead within the input is the same if the
input is announced to be longer. -/
structure LongSim {α : Type} (L : Nat) (m : M OclP α) : Prop where
  run : ∀ p v q, m p = .ok v q → p.ilen ≤ L → q.ilen = p.ilen ∧ p.word ≤ q.word ∧
    (8 * (q.word + 6) ≤ p.ilen → m (p.long L) = .ok v (q.long L))

namespace LongSim
variable {α β : Type} {L : Nat}

theorem pure (a : α) : LongSim L (Pure.pure a : M OclP α) := by
  constructor
  intro p v q h _
  cases h
  exact ⟨rfl, le_refl _, fun _ => rfl⟩

theorem bind {m : M OclP α} {f : α → M OclP β} (hm : LongSim L m) (hf : ∀ a, LongSim L (f a)) :
    LongSim L (m >>= f) := by
  constructor
  intro p v q h hl
  rw [M.bind_def] at h
  cases h1 : m p with
  | ok a r =>
    rw [h1] at h
    obtain ⟨a1, a2, a3⟩ := hm.run p a r h1 hl
    obtain ⟨b1, b2, b3⟩ := (hf a).run r v q h (by omega)
    refine ⟨b1.trans a1, le_trans a2 b2, fun hw => ?_⟩
    rw [M.bind_ok (a3 (by omega))]
    exact b3 (by omega)
  | err e r => rw [h1] at h; cases h
  | ub => rw [h1] at h; cases h
  | timeout => rw [h1] at h; cases h

theorem fail (e : Errno) : LongSim L (M.fail e : M OclP α) := by
  constructor
  intro p v q h _; cases h

theorem ub : LongSim L (M.ub : M OclP α) := by
  constructor
  intro p v q h _; cases h

theorem access {g : OclP → Option α} (hg : ∀ p, g (p.long L) = g p) : LongSim L (M.access g) := by
  constructor
  intro p v q h _
  unfold M.access at h ⊢
  rw [hg]
  cases h1 : g p with
  | none => rw [h1] at h; cases h
  | some a =>
    rw [h1] at h
    cases h
    exact ⟨rfl, le_refl _, fun _ => rfl⟩

theorem ite {c : Prop} [Decidable c] {a b : M OclP α} (ha : LongSim L a) (hb : LongSim L b) :
    LongSim L (if c then a else b) := by
  split
  · exact ha
  · exact hb

/-- `M.get` followed by something that uses only fields other than `ilen` -/
theorem get {f : OclP → M OclP β} (h : ∀ p, LongSim L (f p)) (h' : ∀ p, f (p.long L) = f p) :
    LongSim L (M.get >>= f) := by
  constructor
  intro p v q hp hl
  rw [M.get_bind_apply] at hp ⊢
  rw [h']
  exact (h p).run p v q hp hl

end LongSim

theorem oclPut_sim (L : Nat) (bs : List Byte) : LongSim L (oclPut bs) := by
  constructor
  intro p v q h hl
  unfold oclPut at h ⊢
  cases h1 : writeBytes p.buf (8 * p.out) bs with
  | none => simp only [M.update, bind, M.bind, h1, Option.map_none] at h; cases h
  | some b =>
    simp only [M.update, M.modify, bind, M.bind, h1, Option.map_some] at h
    cases h
    refine ⟨rfl, le_refl _, fun _ => ?_⟩
    simp only [M.update, M.modify, bind, M.bind, OclP.long, h1, Option.map_some]

theorem oclRoom_sim (L k : Nat) : LongSim L (oclRoom k) := by
  unfold oclRoom
  exact LongSim.get (fun p => .ite (.fail _) (.pure _)) fun p => rfl

theorem oclFetch_long {e : Endian} {k L : Nat} {p : OclP} (h : (p.word + k) * 8 < p.ilen) (hl : p.ilen ≤ L) :
    oclFetch e k (p.long L) = oclFetch e k p := by
  unfold oclFetch
  rw [if_pos h, if_pos (by show (p.word + k) * 8 < L; omega)]
  rfl

theorem oclReadBits_sim (e : Endian) (L n : Nat) : LongSim L (oclReadBits e n) := by
  constructor
  intro p v q h hl
  unfold oclReadBits at h ⊢
  rw [M.get_bind_apply] at h ⊢
  by_cases hb : p.bits < n
  · rw [if_pos hb] at h
    rw [if_pos (by exact hb)]
    by_cases hw : (p.word + 1) * 8 > p.ilen
    · rw [if_pos hw] at h; cases h
    · rw [if_neg hw] at h
      rw [if_neg (by show ¬ (p.word + 1) * 8 > L; omega)]
      unfold oclShift at h ⊢
      cases h1 : oclFetch e 6 p with
      | none =>
        rw [M.bind_def, M.bind_def] at h
        unfold M.access at h
        rw [h1] at h
        cases h
      | some w =>
        rw [M.bind_def, M.bind_def] at h
        unfold M.access at h
        rw [h1] at h
        simp only at h
        rw [M.get_bind_apply] at h
        match hla : p.la with
        | [l0, l1, l2, l3, l4, l5] =>
          rw [hla] at h
          simp only at h
          cases h2 : winMiss p.buffer p.bits n l0 with
          | none =>
            simp only [M.modify, bind, M.bind, Pure.pure, M.pure, h2] at h
            cases h
          | some r =>
            simp only [M.modify, bind, M.bind, Pure.pure, M.pure, h2] at h
            cases h
            refine ⟨rfl, Nat.le_succ _, fun hq => ?_⟩
            have hq : 8 * (p.word + 1 + 6) ≤ p.ilen := hq
            have h3 : oclFetch e 6 (p.long L) = some w := by
              rw [oclFetch_long (by omega) hl, h1]
            simp only [OclP.long, hla] at h3
            simp only [M.modify, bind, M.bind, Pure.pure, M.pure, M.access, M.get, OclP.long, hla, h3, h2]
        | [] | [_] | [_, _] | [_, _, _] | [_, _, _, _] | [_, _, _, _, _] | _ :: _ :: _ :: _ :: _ :: _ :: _ :: _ =>
          rw [hla] at h; cases h
  · rw [if_neg hb] at h
    rw [if_neg (by exact hb)]
    cases h2 : winHit p.buffer p.bits n with
    | none =>
      simp only [bind, M.bind, M.access, h2] at h
      cases h
    | some r =>
      simp only [M.modify, bind, M.bind, Pure.pure, M.pure, M.access, h2] at h
      cases h
      refine ⟨rfl, le_refl _, fun _ => ?_⟩
      simp only [M.modify, bind, M.bind, Pure.pure, M.pure, M.access, OclP.long, h2]

theorem oclGetIndex_sim (L size index fsize : Nat) : LongSim L (oclGetIndex size index fsize) := by
  unfold oclGetIndex
  exact LongSim.get (fun p => .ite (.fail _) (.pure _)) fun p => rfl

theorem oclField_sim (e : Endian) (L : Nat) (params : BitVec 64) (i d n : Nat) (l : Nat × BitVec 64 × Nat) :
    LongSim L (oclField e params i d n l) := by
  have hr : ∀ o, LongSim L (oclRef e d o) := fun o => by
    unfold oclRef
    exact .bind (.access fun _ => rfl) fun _ => .bind (.access fun _ => rfl) fun _ => .pure _
  unfold oclField
  by_cases hi : i ≠ 0
  · simp only [if_pos hi]
    exact .bind (oclGetIndex_sim ..) fun o => .bind (hr o) fun _ => .pure _
  · simp only [if_neg hi]
    exact .bind (.pure _) fun _ => .pure _

theorem oclFields_sim (e : Endian) (L : Nat) (params : BitVec 64) (fs : List (Nat × Nat × Nat))
    (l : Nat × BitVec 64 × Nat) : LongSim L (oclFields e params fs l) := by
  induction fs generalizing l with
  | nil => exact .pure _
  | cons f fs ih =>
    unfold oclFields
    exact .bind (oclField_sim ..) fun _ => ih _

theorem oclRepeat_sim (L k : Nat) : LongSim L (oclRepeat k) := by
  induction k with
  | zero => exact .pure _
  | succ k ih =>
    unfold oclRepeat
    exact .bind (.access fun _ => rfl) fun _ => .bind (oclPut_sim ..) fun _ => ih

theorem oclIter_sim (e : Endian) (L : Nat) : LongSim L (oclIter e) := by
  unfold oclIter
  refine .bind (oclReadBits_sim ..) fun op => .ite ?_ (.ite ?_ (.ite (.pure _) (.ite ?_ ?_)))
  · refine .bind (oclReadBits_sim ..) fun rep => LongSim.get (fun p => .ite (.fail _) ?_) fun p => rfl
    exact .bind (oclRoom_sim ..) fun _ => .bind (oclRepeat_sim ..) fun _ => .pure _
  · exact .bind (oclRoom_sim ..) fun _ => .bind (oclPut_sim ..) fun _ => .pure _
  · exact .bind (oclReadBits_sim ..) fun _ => .bind (oclGetIndex_sim ..) fun _ => .bind (oclRoom_sim ..) fun _ =>
      .bind (.access fun _ => rfl) fun _ => .bind (oclPut_sim ..) fun _ => .pure _
  · refine .bind ?_ fun _ => .pure _
    unfold oclDoOp
    exact .ite (.fail _) (.bind (oclReadBits_sim ..) fun _ => .bind (oclFields_sim ..) fun _ =>
      .bind (oclRoom_sim ..) fun _ => oclPut_sim ..)

/-- A loop that ends does so with more fuel, too, and with a greater input length. -/
theorem doWhile_sim {body : M OclP Bool} {L : Nat} (hb : LongSim L body) (f f' : Nat) (hf : f ≤ f') :
    ∀ p v q, M.doWhile body f p = .ok v q → p.ilen ≤ L → q.ilen = p.ilen ∧ p.word ≤ q.word ∧
      (8 * (q.word + 6) ≤ p.ilen → M.doWhile body f' (p.long L) = .ok v (q.long L)) := by
  induction f generalizing f' with
  | zero => intro p v q h; cases h
  | succ f ih =>
    intro p v q h hl
    obtain ⟨f', rfl⟩ : ∃ k, f' = k + 1 := ⟨f' - 1, by omega⟩
    unfold M.doWhile at h ⊢
    rw [M.bind_def] at h
    cases h1 : body p with
    | ok a r =>
      rw [h1] at h
      simp only at h
      obtain ⟨a1, a2, a3⟩ := hb.run p a r h1 hl
      cases a with
      | true =>
        cases h
        refine ⟨a1, a2, fun hw => ?_⟩
        rw [M.bind_ok (a3 hw)]
        rfl
      | false =>
        obtain ⟨b1, b2, b3⟩ := ih f' (by omega) r v q h (by omega)
        refine ⟨b1.trans a1, le_trans a2 b2, fun hw => ?_⟩
        rw [M.bind_ok (a3 (by omega))]
        exact b3 (by omega)
    | err e r => rw [h1] at h; cases h
    | ub => rw [h1] at h; cases h
    | timeout => rw [h1] at h; cases h

theorem oclBody_sim (e : Endian) (L f f' : Nat) (hf : f ≤ f') (p : OclP) (v : Nat) (q : OclP)
    (h : oclBody e f p = .ok v q) (hl : p.ilen ≤ L) (hw : 8 * (q.word + 6) ≤ p.ilen) :
    oclBody e f' (p.long L) = .ok v (q.long L) := by
  have hr : LongSim L (oclReadBits e 32 >>= fun _ => M.get >>= fun p => pure (p.out * 8)) :=
    .bind (oclReadBits_sim ..) fun _ => LongSim.get (fun _ => .pure _) fun _ => rfl
  unfold oclBody at h ⊢
  rw [M.bind_def] at h
  cases h1 : M.doWhile (oclIter e) f p with
  | ok a r =>
    rw [h1] at h
    obtain ⟨a1, a2, a3⟩ := doWhile_sim (oclIter_sim e L) f f' hf p a r h1 hl
    obtain ⟨b1, b2, b3⟩ := hr.run r v q h (by omega)
    rw [M.bind_ok (a3 (by omega))]
    exact b3 (by omega)
  | err e r => rw [h1] at h; cases h
  | ub => rw [h1] at h; cases h
  | timeout => rw [h1] at h; cases h

theorem oclInit_sim (e : Endian) (L : Nat) (p : OclP) (hw : p.word = 0) (h48 : 48 ≤ p.ilen) (hl : p.ilen ≤ L) :
    oclInit e (p.long L) = (oclInit e p).map (OclP.long L) := by
  have h : ∀ k, k < 6 → oclFetch e k (p.long L) = oclFetch e k p :=
    fun k hk => oclFetch_long (by omega) hl
  unfold oclInit
  rw [h 0 (by omega), h 1 (by omega), h 2 (by omega), h 3 (by omega), h 4 (by omega), h 5 (by omega)]
  cases oclFetch e 0 p <;> cases oclFetch e 1 p <;> cases oclFetch e 2 p <;> cases oclFetch e 3 p <;>
    cases oclFetch e 4 p <;> cases oclFetch e 5 p <;> rfl

/-- A stream of `n` bytes followed by at least 48 more bytes of the input object is decoded,
however long the input is announced to be. -/
theorem oclCore_long (e : Endian) (inp : List Byte) (n ilen : Nat) (buf : List Byte) (olen : Nat) {d : List Byte}
    (h8 : n % 8 = 0) (hin : n + 48 ≤ inp.length) (hil : n + 48 ≤ ilen) (hdec : HwDecodes (inp.take n) d)
    (hd : d.length ≤ olen) (hdb : d.length ≤ buf.length) :
    oclCore e (some inp) 0 ilen buf olen = .ret none d.length (d ++ buf.drop d.length) := by
  obtain ⟨ops, rest, hx, hs, hr, hb0⟩ := opsDecode_of_hw hdec
  -- the run with the length `n + 48`
  have hin' : 8 * 0 + 8 * ((n + 48 + 7) / 8) ≤ ((some inp).getD buf).length := by
    rw [Option.getD_some]; omega
  obtain ⟨p0, h0, hinv, ho0, hr0⟩ := oclInit_ok e (some inp) 0 (n + 48) buf olen hin'
  obtain ⟨G, hG⟩ : ∃ G, oclG e (some inp) 0 (n + 48) buf olen hin' = G := ⟨_, rfl⟩
  rw [hG] at hinv ho0 hr0
  have hGb : G.bytes = inp.take (n + 48) := by
    rw [← hG]
    show (inp.drop (8 * 0)).take (8 * ((n + 48) / 8)) = _
    rw [Nat.mul_zero, List.drop_zero, show 8 * ((n + 48) / 8) = n + 48 by omega]
  have hGe : G.e = e := by rw [← hG]; rfl
  have hGi : G.ilen = n + 48 := by rw [← hG]; rfl
  have hGs : G.src = some inp := by rw [← hG]; rfl
  have hG0 : G.buf0 = buf := by rw [← hG]; rfl
  have hcap : G.cap = min olen buf.length := by rw [← hG]; rfl
  have hb : bytesBits G.bytes = ops.flatMap Op.bits ++ (bitsOf 5 0x1e ++ (rest ++ bytesBits ((inp.drop n).take 48))) := by
    rw [hGb, List.take_add, bytesBits_append, hb0]
    simp only [List.append_assoc]
  have hlen : ∀ ops : List Op, 5 * ops.length ≤ (ops.flatMap Op.bits).length := by
    intro ops
    induction ops with
    | nil => simp
    | cons op ops ih => have := five_le_bits op; simp only [List.length_cons, List.flatMap_cons, List.length_append]; omega
  have htot : (bytesBits G.bytes).length = 64 * ((n + 48) / 8) := by
    rw [length_bytesBits, G.length_bytes, hGi]; omega
  have hbl := congrArg List.length hb0
  rw [length_bytesBits, List.length_take] at hbl
  simp only [List.length_append, length_bitsOf] at hbl
  have hfuel := hlen ops
  obtain ⟨p1, h1, hi1, ho1, hr1⟩ := (oclIter_ok G).loop_fit hx.1 hs hinv
    (R := rest ++ bytesBits ((inp.drop n).take 48)) (by rw [hr0, hb])
    (data := d) (by rw [ho0]; exact hx.2) (by show _ ≤ G.cap; rw [hcap]; omega)
    (by
      intro p' pre post o he hne hrun hw hop hrp
      show G.src ≠ none ∨ _
      exact .inl (by rw [hGs]; simp))
    (fuel := 8 * (n + 48) + 1) (by omega)
  have hol : (G.dec.outp p1).length = 8 * p1.out := hi1.1.length_outp
  rcases oclReadBits_spec (G := G) (n := 32) (by omega) (by omega) hi1.1 hi1.2 with
    ⟨v, p2, h2, hi2, hf2, hb2, ho2, hv, hr2⟩ | ⟨-, hlt⟩
  · have hbody : oclBody e (8 * (n + 48) + 1) p0 = .ok (p2.out * 8) p2 := by
      unfold oclBody
      rw [hGe] at h1 h2
      rw [M.bind_ok h1, M.bind_ok h2, M.get_bind_apply]
      rfl
    have hword : p2.word = wordsUsed ((ops.flatMap Op.bits).length + 5 + 32) := by
      apply oclRest_word hi2
      have e1 := congrArg List.length hr2
      have e2 := congrArg List.length hr1
      have e3 := congrArg List.length hb
      rw [htot] at e3
      simp only [List.length_append, length_bitsOf] at e1 e2 e3
      rw [hGi, ← show (n + 48) / 8 = (n + 48) / 8 from rfl]
      omega
    have hp0i : p0.ilen = n + 48 := by rw [hinv.1.ilen, hGi]
    have hw2 : 8 * (p2.word + 6) ≤ p0.ilen := by
      rw [hword, hp0i]; unfold wordsUsed; omega
    have hsim := oclBody_sim e ilen _ (8 * ilen + 1) (by omega) p0 _ p2 hbody (by omega) hw2
    have hini := oclInit_sim e ilen (oclStart (some inp) 0 (n + 48) buf olen) rfl (by show 48 ≤ n + 48; omega)
      (by show n + 48 ≤ ilen; omega)
    rw [h0] at hini
    unfold oclCore
    rw [show oclStart (some inp) 0 ilen buf olen = (oclStart (some inp) 0 (n + 48) buf olen).long ilen from rfl, hini]
    simp only [Option.map_some]
    rw [hsim]
    simp only
    have e1 : p2.out * 8 = d.length := by rw [ho2, ← ho1, hol, Nat.mul_comm]
    have e2 : p2.buf.take d.length = d := by rw [hb2, ← ho1, hol]; rfl
    have e3 : p2.buf.drop d.length = buf.drop d.length := by
      have := hi1.1.frame
      rw [hG0] at this
      rw [hb2, ← ho1, hol]; exact this
    rw [e1]
    have : (p2.long ilen).buf = d ++ buf.drop d.length := by
      show p2.buf = _
      rw [← e3]
      conv_lhs => rw [← List.take_append_drop d.length p2.buf, e2]
    rw [this]
  · rw [hr1] at hlt
    simp only [List.length_append] at hlt
    omega

end Lib842
