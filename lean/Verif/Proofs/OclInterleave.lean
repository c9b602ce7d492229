import Verif.Model.OclInterleave
import Verif.Proofs.ErrCodes
import Verif.Proofs.Monad
import Verif.Proofs.Words
import Verif.Proofs.StreamBlock
/-!
# The step-by-step kernel computes what the kernel of `Verif.Model.Ocl` computes
-/

namespace Lib842
open Spec

theorem MemProg.run_bind {α β : Type} (m : MemProg α) (f : α → MemProg β) (b : List Byte) :
    (m.bind f).run b = match m.run b with
      | none => none
      | some (a, b) => (f a).run b := by
  induction m generalizing b with
  | ret a => rfl
  | ub => rfl
  | read i k g ih =>
    simp only [MemProg.bind, MemProg.run]
    cases readBytes b i k with
    | none => rfl
    | some bs => exact ih bs b
  | write i bs m ih =>
    simp only [MemProg.bind, MemProg.run]
    cases writeBytes b i bs with
    | none => rfl
    | some b' => exact ih b'

/-- The state without the buffer. -/
def OclP.strip (p : OclP) : OclP := { p with buf := [] }

/-- An outcome as the step-by-step kernel gives it. -/
def stripRes {α : Type} : Outcome OclP α → List Byte → Option (Outcome OclP α × List Byte)
  | .ok a p, _ => some (.ok a p.strip, p.buf)
  | .err e p, _ => some (.err e p.strip, p.buf)
  | .ub, _ => none
  | .timeout, b => some (.timeout, b)

/-- Running `x` alone is running `y`; after a timeout nothing is said of the buffer. -/
def SimAt {α : Type} (x : OM α) (y : M OclP α) (p : OclP) : Prop :=
  match y p with
  | .ok a p' => (x p.strip).run p.buf = some (.ok a p'.strip, p'.buf)
  | .err e p' => (x p.strip).run p.buf = some (.err e p'.strip, p'.buf)
  | .ub => (x p.strip).run p.buf = none
  | .timeout => ∃ b, (x p.strip).run p.buf = some (.timeout, b)

theorem OM.run_bind {α β : Type} (x : OM α) (f : α → OM β) (q : OclP) (b : List Byte) :
    ((x >>= f) q).run b = match (x q).run b with
      | none => none
      | some (.ok a q, b) => (f a q).run b
      | some (.err e q, b) => some (.err e q, b)
      | some (.ub, _) => none
      | some (.timeout, b) => some (.timeout, b) := by
  show ((x q).bind _).run b = _
  rw [MemProg.run_bind]
  cases h : (x q).run b with
  | none => rfl
  | some r =>
    obtain ⟨o, b'⟩ := r
    cases o <;> rfl

theorem SimAt.bind {α β : Type} {x : OM α} {y : M OclP α} {f : α → OM β} {g : α → M OclP β} {p : OclP}
    (h : SimAt x y p) (hf : ∀ a p', y p = .ok a p' → SimAt (f a) (g a) p') : SimAt (x >>= f) (y >>= g) p := by
  unfold SimAt at h ⊢
  rw [M.bind_def, OM.run_bind]
  cases hy : y p with
  | ok a p' =>
    rw [hy] at h
    simp only at h ⊢
    rw [h]
    exact hf a p' hy
  | err e p' => rw [hy] at h; simp only at h ⊢; rw [h]
  | ub => rw [hy] at h; simp only at h ⊢; rw [h]
  | timeout =>
    rw [hy] at h
    obtain ⟨b, h⟩ := h
    simp only
    rw [h]
    exact ⟨b, rfl⟩

theorem SimAt.pure {α : Type} (a : α) (p : OclP) : SimAt (Pure.pure a) (Pure.pure a) p := rfl
theorem SimAt.fail {α : Type} (e : Errno) (p : OclP) : SimAt (OM.fail e : OM α) (M.fail e) p := rfl
theorem SimAt.ub {α : Type} (p : OclP) : SimAt (OM.opt none : OM α) M.ub p := rfl
theorem SimAt.timeout {α : Type} (p : OclP) : SimAt (OM.timeout : OM α) M.timeout p := ⟨p.buf, rfl⟩
theorem SimAt.get {β : Type} {f : OclP → OM β} {g : OclP → M OclP β} {p : OclP} (h : SimAt (f p.strip) (g p) p) :
    SimAt (OM.get >>= f) (M.get >>= g) p := h
theorem SimAt.modify {f g : OclP → OclP} {p : OclP} (h : f p.strip = (g p).strip) (hb : (g p).buf = p.buf) :
    SimAt (OM.modify f) (M.modify g) p := by
  unfold SimAt
  show some _ = some _
  rw [h, hb]

theorem SimAt.opt {α : Type} {o : Option α} {g : OclP → Option α} {p : OclP} (h : g p = o) :
    SimAt (OM.opt o) (M.access g) p := by
  unfold SimAt M.access
  rw [h]
  cases o <;> rfl

theorem SimAt.load {i k : Nat} {g : OclP → Option (List Byte)} {p : OclP} (h : g p = readBytes p.buf i k) :
    SimAt (OM.load i k) (M.access g) p := by
  unfold SimAt M.access
  rw [h]
  cases hr : readBytes p.buf i k with
  | none => simp only; unfold OM.load MemProg.run; rw [hr]
  | some bs => simp only; unfold OM.load MemProg.run; rw [hr]; rfl

/-- A load of bytes that are then made a number. -/
theorem SimAt.loadVal {α : Type} {i k : Nat} {d : List Byte → Option α} {g : OclP → Option α} {p : OclP}
    (h : g p = (readBytes p.buf i k).bind d) :
    SimAt (OM.load i k >>= fun bs => OM.opt (d bs)) (M.access g) p := by
  unfold SimAt M.access
  rw [h, OM.run_bind]
  unfold OM.load MemProg.run
  cases hr : readBytes p.buf i k with
  | none => simp
  | some bs =>
    simp only [Option.bind_some, MemProg.run]
    cases d bs <;> rfl

theorem load16_read (e : Endian) (m : List Byte) (i : Nat) :
    load16 e m i = (readBytes m i 2).bind fun bs => load16 e bs 0 := by
  by_cases h : i + 2 ≤ m.length
  · rw [readBytes_ok h, Option.bind_some]
    unfold load16
    rw [readBytes_ok h, readBytes_ok (by simp; omega), List.drop_zero, List.take_take, Nat.min_self]
  · rw [readBytes_none h]
    unfold load16
    rw [readBytes_none h]; rfl

theorem load64_read (e : Endian) (m : List Byte) (i : Nat) :
    load64 e m i = (readBytes m i 8).bind fun bs => load64 e bs 0 := by
  by_cases h : i + 8 ≤ m.length
  · rw [readBytes_ok h, Option.bind_some]
    unfold load64
    rw [readBytes_ok h, readBytes_ok (by simp; omega), List.drop_zero, List.take_take, Nat.min_self]
  · rw [readBytes_none h]
    unfold load64
    rw [readBytes_none h]; rfl

theorem sim_fetch (e : Endian) (k : Nat) (p : OclP) : SimAt (oclFetchP e k) (M.access (oclFetch e k)) p := by
  by_cases h : (p.word + k) * 8 < p.ilen
  · cases hs : p.src with
    | some inp =>
      have : SimAt (OM.opt ((load64 e inp (8 * (p.ioff + p.word + k))).map (swapBe64 e))) (M.access (oclFetch e k)) p :=
        SimAt.opt (by unfold oclFetch OclP.input; rw [if_pos h, hs]; rfl)
      unfold SimAt at this ⊢
      have e1 : oclFetchP e k p.strip = OM.opt ((load64 e inp (8 * (p.ioff + p.word + k))).map (swapBe64 e)) p.strip := by
        show (if (p.word + k) * 8 < p.ilen then (match p.src with
          | some inp => OM.opt ((load64 e inp (8 * (p.ioff + p.word + k))).map (swapBe64 e))
          | none => _) else _) p.strip = _
        rw [if_pos h, hs]
      rw [e1]
      exact this
    | none =>
      have : SimAt (OM.load (8 * (p.ioff + p.word + k)) 8 >>= fun bs => OM.opt ((load64 e bs 0).map (swapBe64 e)))
          (M.access (oclFetch e k)) p :=
        SimAt.loadVal (by
          unfold oclFetch OclP.input
          rw [if_pos h, hs, Option.getD_none, load64_read]
          cases readBytes p.buf (8 * (p.ioff + p.word + k)) 8 <;> rfl)
      unfold SimAt at this ⊢
      have e1 : oclFetchP e k p.strip = (OM.load (8 * (p.ioff + p.word + k)) 8 >>= fun bs =>
          OM.opt ((load64 e bs 0).map (swapBe64 e))) p.strip := by
        show (if (p.word + k) * 8 < p.ilen then (match p.src with
          | some inp => _
          | none => (OM.load (8 * (p.ioff + p.word + k)) 8 >>= fun bs => OM.opt ((load64 e bs 0).map (swapBe64 e))))
          else _) p.strip = _
        rw [if_pos h, hs]
      rw [e1]
      exact this
  · have : SimAt (OM.opt (some 0#64)) (M.access (oclFetch e k)) p :=
      SimAt.opt (by unfold oclFetch; rw [if_neg h])
    unfold SimAt at this ⊢
    have e1 : oclFetchP e k p.strip = OM.opt (some 0#64) p.strip := by
      show (if (p.word + k) * 8 < p.ilen then _ else Pure.pure 0#64 : OM (BitVec 64)) p.strip = _
      rw [if_neg h]; rfl
    rw [e1]
    exact this

theorem sim_shift (e : Endian) (p : OclP) : SimAt (oclShiftP e) (oclShift e) p := by
  unfold oclShiftP oclShift
  refine SimAt.bind (sim_fetch e 6 p) fun w p' _ => SimAt.get ?_
  rw [show p'.strip.la = p'.la from rfl]
  generalize p'.la = la
  rcases la with _ | ⟨l0, _ | ⟨l1, _ | ⟨l2, _ | ⟨l3, _ | ⟨l4, _ | ⟨l5, _ | ⟨l6, t⟩⟩⟩⟩⟩⟩⟩
  case cons.cons.cons.cons.cons.cons.nil => exact SimAt.bind (SimAt.modify rfl rfl) fun _ _ _ => SimAt.pure _ _
  all_goals exact SimAt.ub _

theorem sim_readBits (e : Endian) (n : Nat) (p : OclP) : SimAt (oclReadBitsP e n) (oclReadBits e n) p := by
  unfold oclReadBitsP oclReadBits
  refine SimAt.get ?_
  show SimAt (if p.bits < n then if (p.word + 1) * 8 > p.ilen then _ else _ else _) _ p
  by_cases h : p.bits < n
  · rw [if_pos h, if_pos h]
    by_cases h2 : (p.word + 1) * 8 > p.ilen
    · rw [if_pos h2, if_pos h2]; exact SimAt.fail _ _
    · rw [if_neg h2, if_neg h2]
      refine SimAt.bind (sim_shift e p) fun w p' _ => SimAt.bind (SimAt.modify rfl rfl) fun _ p'' _ =>
        SimAt.bind (SimAt.opt rfl) fun r p3 _ => SimAt.bind (SimAt.modify rfl rfl) fun _ _ _ => SimAt.pure _ _
  · rw [if_neg h, if_neg h]
    exact SimAt.bind (SimAt.opt rfl) fun r p3 _ => SimAt.bind (SimAt.modify rfl rfl) fun _ _ _ => SimAt.pure _ _

theorem sim_getIndex (size index fsize : Nat) (p : OclP) :
    SimAt (oclGetIndexP size index fsize) (oclGetIndex size index fsize) p := by
  unfold oclGetIndexP oclGetIndex
  refine SimAt.get ?_
  rw [show p.strip.out = p.out from rfl]
  simp only
  split
  · exact SimAt.fail _ _
  · exact SimAt.pure _ _

theorem OM.assoc {α β γ : Type} (x : OM α) (f : α → OM β) (g : β → OM γ) :
    (x >>= f) >>= g = x >>= fun a => f a >>= g := by
  funext q
  show ((x q).bind _).bind _ = (x q).bind _
  generalize x q = m
  induction m with
  | ret o => cases o <;> rfl
  | ub => rfl
  | read i k f ih => simp only [MemProg.bind]; congr 1; funext bs; exact ih bs
  | write i bs m ih => simp only [MemProg.bind]; congr 1

theorem sim_ref (e : Endian) (dst offset : Nat) (p : OclP) : SimAt (oclRefP e dst offset) (oclRef e dst offset) p := by
  unfold oclRefP oclRef
  rw [← OM.assoc]
  refine SimAt.bind (SimAt.loadVal (load16_read e _ _)) fun a p1 _ => ?_
  rw [← OM.assoc]
  refine SimAt.bind (SimAt.loadVal (load16_read e _ _)) fun b p2 _ => SimAt.pure _ _

theorem sim_field (e : Endian) (params : BitVec 64) (isIndex dst numBits : Nat) (l : Nat × BitVec 64 × Nat) (p : OclP) :
    SimAt (oclFieldP e params isIndex dst numBits l) (oclField e params isIndex dst numBits l) p := by
  unfold oclFieldP oclField
  simp only
  split
  · exact SimAt.bind (sim_getIndex _ _ _ _) fun _ _ _ => SimAt.bind (sim_ref _ _ _ _) fun _ _ _ => SimAt.pure _ _
  · exact SimAt.bind (SimAt.pure _ _) fun _ _ _ => SimAt.pure _ _

theorem sim_fields (e : Endian) (params : BitVec 64) (fs : List (Nat × Nat × Nat)) (l : Nat × BitVec 64 × Nat) (p : OclP) :
    SimAt (oclFieldsP e params fs l) (oclFields e params fs l) p := by
  induction fs generalizing l p with
  | nil => exact SimAt.pure _ _
  | cons f fs ih => exact SimAt.bind (sim_field _ _ _ _ _ _ _) fun _ _ _ => ih _ _

theorem sim_put (bs : List Byte) (p : OclP) : SimAt (oclPutP bs) (oclPut bs) p := by
  unfold oclPutP oclPut
  show SimAt (OM.store (8 * p.out) bs >>= fun _ => _) _ p
  refine SimAt.bind ?_ fun _ _ _ => SimAt.modify rfl rfl
  unfold SimAt M.update OM.store
  simp only [MemProg.run]
  cases writeBytes p.buf (8 * p.out) bs <;> rfl

theorem sim_room (k : Nat) (p : OclP) : SimAt (oclRoomP k) (oclRoom k) p := by
  unfold oclRoomP oclRoom
  refine SimAt.get ?_
  show SimAt (if p.out * 8 + k * 8 > p.olen then _ else _) _ p
  split
  · exact SimAt.fail _ _
  · exact SimAt.pure _ _

theorem sim_doOp (e : Endian) (op : Nat) (p : OclP) : SimAt (oclDoOpP e op) (oclDoOp e op) p := by
  unfold oclDoOpP oclDoOp
  split
  · exact SimAt.fail _ _
  · exact SimAt.bind (sim_readBits _ _ _) fun _ _ _ => SimAt.bind (sim_fields _ _ _ _ _) fun _ _ _ =>
      SimAt.bind (sim_room _ _) fun _ _ _ => sim_put _ _

theorem sim_repeat (k : Nat) (p : OclP) : SimAt (oclRepeatP k) (oclRepeat k) p := by
  induction k generalizing p with
  | zero => exact SimAt.pure _ _
  | succ k ih =>
    unfold oclRepeatP oclRepeat
    show SimAt (if p.out = 0 then _ else _) _ p
    split
    · rename_i h
      exact SimAt.bind (SimAt.opt (if_pos h)) fun _ _ _ => SimAt.bind (sim_put _ _) fun _ _ _ => ih _
    · rename_i h
      exact SimAt.bind (SimAt.load (if_neg h)) fun _ _ _ => SimAt.bind (sim_put _ _) fun _ _ _ => ih _

theorem sim_iter (e : Endian) (p : OclP) : SimAt (oclIterP e) (oclIter e) p := by
  unfold oclIterP oclIter
  refine SimAt.bind (sim_readBits _ _ _) fun op p1 _ => ?_
  split
  · refine SimAt.bind (sim_readBits _ _ _) fun rep p2 _ => SimAt.get ?_
    show SimAt (if p2.out = 0 then _ else _) _ p2
    split
    · exact SimAt.fail _ _
    · exact SimAt.bind (sim_room _ _) fun _ _ _ => SimAt.bind (sim_repeat _ _) fun _ _ _ => SimAt.pure _ _
  split
  · exact SimAt.bind (sim_room _ _) fun _ _ _ => SimAt.bind (sim_put _ _) fun _ _ _ => SimAt.pure _ _
  split
  · exact SimAt.pure _ _
  split
  · exact SimAt.bind (sim_readBits _ _ _) fun _ _ _ => SimAt.bind (sim_getIndex _ _ _ _) fun _ _ _ =>
      SimAt.bind (sim_room _ _) fun _ _ _ => SimAt.bind (SimAt.load rfl) fun _ _ _ =>
      SimAt.bind (sim_put _ _) fun _ _ _ => SimAt.pure _ _
  · exact SimAt.bind (sim_doOp _ _ _) fun _ _ _ => SimAt.pure _ _

theorem sim_doWhile {x : OM Bool} {y : M OclP Bool} (h : ∀ p, SimAt x y p) (fuel : Nat) (p : OclP) :
    SimAt (OM.doWhile x fuel) (M.doWhile y fuel) p := by
  induction fuel generalizing p with
  | zero => exact SimAt.timeout p
  | succ fuel ih =>
    unfold OM.doWhile M.doWhile
    refine SimAt.bind (h p) fun done p' _ => ?_
    split
    · exact SimAt.pure _ _
    · exact ih _

/-- `oclInit` as a computation. -/
def oclInitM (e : Endian) : M OclP Unit := do
  let a ← M.access (oclFetch e 0)
  let b ← M.access (oclFetch e 1)
  let c ← M.access (oclFetch e 2)
  let d ← M.access (oclFetch e 3)
  let f ← M.access (oclFetch e 4)
  let g ← M.access (oclFetch e 5)
  M.modify fun p => { p with la := [a, b, c, d, f, g] }

theorem oclInitM_eq (e : Endian) (p : OclP) : oclInitM e p = match oclInit e p with
    | some p => .ok () p
    | none => .ub := by
  unfold oclInitM oclInit
  simp only [M.bind_def, M.access]
  cases oclFetch e 0 p <;> simp only
  cases oclFetch e 1 p <;> simp only
  cases oclFetch e 2 p <;> simp only
  cases oclFetch e 3 p <;> simp only
  cases oclFetch e 4 p <;> simp only
  cases oclFetch e 5 p <;> simp only [M.modify_apply]

theorem sim_init (e : Endian) (p : OclP) : SimAt (oclInitP e) (oclInitM e) p :=
  SimAt.bind (sim_fetch _ _ _) fun _ _ _ => SimAt.bind (sim_fetch _ _ _) fun _ _ _ =>
  SimAt.bind (sim_fetch _ _ _) fun _ _ _ => SimAt.bind (sim_fetch _ _ _) fun _ _ _ =>
  SimAt.bind (sim_fetch _ _ _) fun _ _ _ => SimAt.bind (sim_fetch _ _ _) fun _ _ _ =>
  SimAt.modify rfl rfl

/-- The result of a call as the step-by-step kernel gives it. -/
def Call.isRun (c : Call) (r : Option (Option (Option Errno × Nat) × List Byte)) : Prop :=
  match c with
  | .ret rc n b => r = some (some (rc, n), b)
  | .ub => r = none
  | .timeout => ∃ b, r = some (none, b)

theorem sim_core (e : Endian) (src : Option (List Byte)) (ioff ilen olen : Nat) (buf : List Byte) :
    (oclCore e src ioff ilen buf olen).isRun ((oclCoreP e src ioff ilen olen).run buf) := by
  have h : SimAt (do
      oclInitP e
      OM.doWhile (oclIterP e) (8 * ilen + 1)
      let _crc ← oclReadBitsP e 32
      let p ← OM.get
      pure (p.out * 8)) (oclInitM e >>= fun _ => oclBody e (8 * ilen + 1)) (oclStart src ioff ilen buf olen) := by
    refine SimAt.bind (sim_init e _) fun _ p' _ => ?_
    unfold oclBody
    exact SimAt.bind (sim_doWhile (sim_iter e) _ _) fun _ _ _ => SimAt.bind (sim_readBits _ _ _) fun _ _ _ =>
      SimAt.get (SimAt.pure _ _)
  unfold oclCoreP oclCore
  simp only
  rw [MemProg.run_bind]
  unfold SimAt at h
  rw [M.bind_def, oclInitM_eq] at h
  have hs : (oclStart src ioff ilen buf olen).strip = oclStart src ioff ilen [] olen := rfl
  have hb : (oclStart src ioff ilen buf olen).buf = buf := rfl
  cases hi : oclInit e (oclStart src ioff ilen buf olen) with
  | none =>
    rw [hi] at h
    simp only [hs, hb] at h
    rw [h]
    rfl
  | some p =>
    rw [hi] at h
    simp only at h ⊢
    cases hbd : oclBody e (8 * ilen + 1) p with
    | ok n p' => rw [hbd] at h; simp only [hs, hb] at h; rw [h]; rfl
    | err er p' => rw [hbd] at h; simp only [hs, hb] at h; rw [h]; rfl
    | ub => rw [hbd] at h; simp only [hs, hb] at h; rw [h]; rfl
    | timeout =>
      rw [hbd] at h
      simp only [hs, hb] at h
      obtain ⟨b, h⟩ := h
      rw [h]
      exact ⟨b, rfl⟩

theorem loadWord_run (e : Endian) (src : Option (List Byte)) (k : Nat) (buf : List Byte) :
    (loadWordP e src k).run buf = (load64 e (src.getD buf) (8 * k)).map fun v => (v, buf) := by
  unfold loadWordP
  cases src with
  | some inp => simp only [Option.getD_some]; cases load64 e inp (8 * k) <;> rfl
  | none =>
    simp only [Option.getD_none]
    rw [load64_read]
    unfold MemProg.run
    cases readBytes buf (8 * k) 8 with
    | none => rfl
    | some bs => simp only [Option.bind_some]; cases load64 e bs 0 <;> rfl

theorem notMarked_run (e : Endian) (src : Option (List Byte)) (buf : List Byte) :
    (notMarkedP e src).run buf = (notMarked e (src.getD buf)).map fun v => (v, buf) := by
  have hm : ∃ m0 m1, load64 e chunkMarker 0 = some m0 ∧ load64 e chunkMarker 8 = some m1 := by
    cases e <;> exact ⟨_, _, rfl, rfl⟩
  obtain ⟨m0, m1, h0, h1⟩ := hm
  unfold notMarkedP notMarked
  rw [MemProg.run_bind, loadWord_run, h0, h1]
  cases load64 e (src.getD buf) (8 * 0) with
  | none => rfl
  | some a =>
    simp only [Option.map_some]
    by_cases h : a ≠ m0
    · rw [if_pos h, if_pos h]; rfl
    · rw [if_neg h, if_neg h, MemProg.run_bind, loadWord_run]
      cases load64 e (src.getD buf) (8 * 1) <;> rfl

theorem copyWords_run (inp : List Byte) (k i : Nat) (buf : List Byte) (h1 : 8 * i ≤ inp.length)
    (h2 : 8 * i ≤ buf.length) :
    (copyWordsP inp i k).run buf =
      ((readBytes inp (8 * i) (8 * k)).bind (writeBytes buf (8 * i))).map fun b => ((), b) := by
  induction k generalizing i buf with
  | zero =>
    rw [readBytes_ok (by omega), Option.bind_some, writeBytes_ok (by simpa using h2)]
    simp [copyWordsP, MemProg.run]
  | succ k ih =>
    unfold copyWordsP
    by_cases h3 : 8 * i + 8 ≤ inp.length
    · have hl : ((inp.drop (8 * i)).take 8).length = 8 := by simp; omega
      rw [readBytes_ok h3]
      simp only [MemProg.run]
      by_cases h4 : 8 * i + 8 ≤ buf.length
      · rw [writeBytes_ok (by rw [hl]; exact h4)]
        simp only
        rw [ih (i + 1) _ (by omega) (by simp; omega)]
        by_cases h5 : 8 * i + 8 * (k + 1) ≤ inp.length
        · rw [readBytes_ok (by omega), readBytes_ok h5, Option.bind_some, Option.bind_some]
          by_cases h6 : 8 * i + 8 * (k + 1) ≤ buf.length
          · rw [writeBytes_ok (by simp; omega), writeBytes_ok (by simp; omega)]
            simp only [Option.map_some, Option.some.injEq, Prod.mk.injEq, true_and, hl]
            have e1 : (buf.take (8 * i) ++ (inp.drop (8 * i)).take 8).length = 8 * (i + 1) := by simp; omega
            obtain ⟨x, hx⟩ : ∃ x, x = buf.take (8 * i) ++ (inp.drop (8 * i)).take 8 := ⟨_, rfl⟩
            rw [← hx] at e1 ⊢
            have e2 : ∀ n, x.drop (8 * (i + 1) + n) = [] := fun n => List.drop_of_length_le (by omega)
            rw [List.take_append_of_le_length (by omega), List.take_of_length_le (by omega), List.drop_append,
              e2, List.nil_append, List.drop_drop]
            rw [show 8 * (k + 1) = 8 + 8 * k by omega, List.take_add, List.drop_drop, ← List.append_assoc, ← hx,
              show 8 * (i + 1) = 8 * i + 8 by omega]
            congr 2
            simp only [List.length_append, List.length_take, List.length_drop]
            omega
          · rw [writeBytes, if_neg (by simp; omega), writeBytes, if_neg (by simp; omega)]
        · rw [readBytes_none (by omega), readBytes_none h5]; rfl
      · rw [writeBytes, if_neg (by rw [hl]; exact h4)]
        by_cases h5 : 8 * i + 8 * (k + 1) ≤ inp.length
        · rw [readBytes_ok h5, Option.bind_some, writeBytes, if_neg (by simp; omega)]; rfl
        · rw [readBytes_none h5]; rfl
    · rw [readBytes_none h3, readBytes_none (by omega)]; rfl

theorem sim_item (e : Endian) (fmt : ClFormat) (c : Nat) (inp buf : List Byte) (il ol : Option Nat) :
    (oclItem e fmt c inp buf il ol).isRun ((oclItemP e fmt c inp il ol).run buf) := by
  unfold oclItem oclItemP
  have rest : ∀ src : Option (List Byte),
      (match load64 e (src.getD buf) 16 with
        | none => Call.ub
        | some n => if n = 0#64 then .ret none c buf
          else oclCore e src ((BitVec.ofNat 64 c - n).toNat / 8) n.toNat buf (ol.getD (2 ^ 64 - 1))).isRun
      (((loadWordP e src 2).bind fun n => if n = 0#64 then .ret (some (none, c))
          else oclCoreP e src ((BitVec.ofNat 64 c - n).toNat / 8) n.toNat (ol.getD (2 ^ 64 - 1))).run buf) := by
    intro src
    rw [MemProg.run_bind, loadWord_run]
    cases load64 e (src.getD buf) 16 with
    | none => rfl
    | some n =>
      simp only [Option.map_some]
      by_cases hn : n = 0#64
      · rw [if_pos hn, if_pos hn]; rfl
      · rw [if_neg hn, if_neg hn]; exact sim_core ..
  cases fmt with
  | always => exact sim_core ..
  | maybe =>
    simp only [if_true]
    rw [MemProg.run_bind, notMarked_run]
    cases notMarked e ((some inp).getD buf) with
    | none => rfl
    | some raw =>
      cases raw with
      | false => exact rest (some inp)
      | true =>
        simp only [Option.map_some, if_true]
        rw [MemProg.run_bind, copyWords_run _ _ _ _ (by omega) (by omega)]
        unfold copyWords
        rw [Nat.mul_zero]
        cases (readBytes inp 0 (8 * (c / 8))).bind (writeBytes buf 0) <;> rfl
  | inplace =>
    simp only [reduceCtorEq, if_false]
    rw [MemProg.run_bind, notMarked_run]
    cases notMarked e ((none : Option (List Byte)).getD buf) with
    | none => rfl
    | some raw =>
      cases raw with
      | false => exact rest none
      | true => rfl

end Lib842
