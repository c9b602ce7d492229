import Verif.Model.Config
import Verif.Proofs.OptDecomp
import Verif.Proofs.OptCall
/-!
# The configurations of the optimised codec compared with the default one
-/

namespace Lib842
open Spec ODecomp

namespace Config

/-- `y` does what `x` does whenever `x` returns without having noted an error; a noted error
stays. -/
structure Low {α : Type} (x y : M ODecomp α) : Prop where
  keeps : ∀ {p a p'}, x p = .ok a p' → p.errorcode ≠ none → p'.errorcode ≠ none
  sim : ∀ {p a p'}, x p = .ok a p' → p'.errorcode = none → y p = .ok a p'

theorem Low.bind {α β : Type} {x y : M ODecomp α} {f g : α → M ODecomp β} (h : Low x y)
    (hf : ∀ a, Low (f a) (g a)) : Low (x >>= f) (y >>= g) := by
  constructor
  · intro p b p' hb he
    cases hx : x p with
    | ok a p1 =>
      rw [M.bind_ok hx] at hb
      exact (hf a).keeps hb (h.keeps hx he)
    | err er p1 => rw [M.bind_err hx] at hb; cases hb
    | ub => rw [M.bind_def, hx] at hb; cases hb
    | timeout => rw [M.bind_def, hx] at hb; cases hb
  · intro p b p' hb he
    cases hx : x p with
    | ok a p1 =>
      rw [M.bind_ok hx] at hb
      have h1 : p1.errorcode = none := by
        by_contra hne
        exact (hf a).keeps hb hne he
      rw [M.bind_ok (h.sim hx h1)]
      exact (hf a).sim hb he
    | err er p1 => rw [M.bind_err hx] at hb; cases hb
    | ub => rw [M.bind_def, hx] at hb; cases hb
    | timeout => rw [M.bind_def, hx] at hb; cases hb

theorem Low.refl {α : Type} {x : M ODecomp α} (h : ∀ {p a p'}, x p = .ok a p' → p'.errorcode = p.errorcode) :
    Low x x :=
  ⟨fun hx he => by rw [h hx]; exact he, fun hx _ => hx⟩

theorem Low.pure {α : Type} (a : α) : Low (Pure.pure a : M ODecomp α) (Pure.pure a) :=
  .refl fun h => by cases h; rfl

theorem Low.get : Low (M.get : M ODecomp ODecomp) M.get :=
  .refl fun h => by cases h; rfl

theorem Low.fail {α : Type} (er : Errno) (y : M ODecomp α) : Low (M.fail er : M ODecomp α) y :=
  ⟨fun h => (by cases h), fun h => (by cases h)⟩

theorem Low.access {α : Type} (f : ODecomp → Option α) : Low (M.access f) (M.access f) :=
  .refl fun {p a p'} h => by
    unfold M.access at h
    split at h <;> cases h
    rfl

theorem Low.modify {f : ODecomp → ODecomp} (h : ∀ p, (f p).errorcode = p.errorcode) :
    Low (M.modify f) (M.modify f) :=
  .refl fun {p a p'} hx => by cases hx; exact h p

theorem setError_ne (er : Errno) (p : ODecomp) : (p.setError er).errorcode ≠ none := by
  unfold ODecomp.setError
  split <;> simp_all

theorem Low.ite {α : Type} {c : Prop} [Decidable c] {x x' y y' : M ODecomp α} (h1 : Low x y) (h2 : Low x' y') :
    Low (if c then x else x') (if c then y else y') := by
  split
  · exact h1
  · exact h2

variable (cfg : OptCfg) (e : Endian)

theorem readWord_low : Low (readWord e) (readWordC cfg e) := by
  have hko : Low (do
      let w ← M.access fun p : ODecomp => load64 e p.inp (8 * p.word)
      M.modify fun p => { p with word := p.word + 1 }
      Pure.pure (swapBe64 e w)) (do
      let w ← M.access fun p : ODecomp => load64 e p.inp (8 * p.word)
      M.modify fun p => { p with word := p.word + 1 }
      Pure.pure (swapBe64 e w)) :=
    (Low.access _).bind fun w => Low.bind (.modify (by intro _; rfl)) fun _ => .pure _
  constructor
  · intro p a p' h he
    unfold readWord at h
    rw [M.get_bind_apply] at h
    split at h
    · cases h; exact setError_ne _ _
    · exact hko.keeps h he
  · intro p a p' h he
    unfold readWord at h
    unfold readWordC
    rw [M.get_bind_apply] at h ⊢
    split at h
    · cases h; exact absurd he (setError_ne _ _)
    · rename_i hc
      rw [if_neg (fun hh => hc hh.2)]
      exact hko.sim h he

theorem readBits_low (n : Nat) : Low (readBits e n) (readBitsC cfg e n) := by
  unfold readBits readBitsC
  refine Low.get.bind fun p => .ite ?_ ?_
  · exact (readWord_low cfg e).bind fun w => (Low.access _).bind fun r => Low.bind (.modify (by intro _; rfl)) fun _ => .pure _
  · exact (Low.access _).bind fun r => Low.bind (.modify (by intro _; rfl)) fun _ => .pure _

theorem update_low (f : ODecomp → Option ODecomp) (h : ∀ p p', f p = some p' → p'.errorcode = p.errorcode) :
    Low (M.update f) (M.update f) :=
  .refl fun {p a p'} hx => by
    unfold M.update at hx
    split at hx <;> cases hx
    rename_i hs
    exact h _ _ hs

theorem oemit_low (bs : List Byte) : Low (oemit bs) (oemit bs) := by
  unfold oemit
  refine (update_low _ fun p p' h => ?_).bind fun _ => .modify fun _ => rfl
  cases hw : writeBytes p.buf p.out bs with
  | none => rw [hw] at h; cases h
  | some b => rw [hw] at h; cases h; rfl

theorem odoData_low (n : Nat) (d : BitVec 64) : Low (odoData e n d) (odoData e n d) := by
  unfold odoData
  refine .ite (oemit_low _) (.ite (oemit_low _) (.ite (oemit_low _) (.modify fun _ => rfl)))

theorem access_congr {α β : Type} {f g : ODecomp → Option α} {k : α → M ODecomp β} {p : ODecomp} (h : f p = g p) :
    (M.access f >>= k) p = (M.access g >>= k) p := by
  have h' : M.access f p = M.access g p := by unfold M.access; rw [h]
  rw [M.bind_def, M.bind_def, h']

theorem odoIndex_low (size index fsize : Nat) : Low (odoIndex size index fsize) (odoIndexC cfg size index fsize) := by
  have hk : ∀ o : Nat, Low (do
      let bs ← M.access fun p : ODecomp => readBytes p.buf o size
      oemit bs) (do
      let bs ← M.access fun p : ODecomp => readBytes p.buf o size
      oemit bs) := fun o => (Low.access _).bind fun bs => oemit_low bs
  constructor
  · intro p a p' h he
    unfold odoIndex at h
    rw [M.get_bind_apply] at h
    split at h
    · cases h; exact setError_ne _ _
    · exact (hk _).keeps h he
  · intro p a p' h he
    unfold odoIndex at h
    unfold odoIndexC
    rw [M.get_bind_apply] at h ⊢
    split at h
    · cases h; exact absurd he (setError_ne _ _)
    · rename_i hc
      rw [if_neg (fun hh => hc hh.2)]
      have hrd : roundDown p.out 8 ≤ p.out := by unfold roundDown; omega
      have hs : copySrc p (indexOffset index size fsize (roundDown p.out 8)) size =
          readBytes p.buf (indexOffset index size fsize (roundDown p.out 8)) size := by
        unfold copySrc
        rw [if_neg (by omega)]
      exact (access_congr hs).trans h

theorem optStep_low (rep : BitVec 64) (s : OptStep) : Low (optStep e rep s) (optStepC cfg e rep s) := by
  cases s with
  | data n shift width => exact (Low.access _).bind fun v => odoData_low e n v
  | index n shift width fsize => exact (Low.access _).bind fun v => odoIndex_low cfg n _ _

theorem optSteps_low (rep : BitVec 64) (ss : List OptStep) : Low (optSteps e rep ss) (optStepsC cfg e rep ss) := by
  induction ss with
  | nil => exact .pure _
  | cons s ss ih => exact (optStep_low cfg e rep s).bind fun _ => ih

theorem checkError_low : Low checkError (checkErrorC cfg) := by
  constructor
  · intro p a p' h he
    obtain ⟨er, hc⟩ := checkError_ne he
    rw [hc] at h; cases h
  · intro p a p' h he
    unfold checkErrorC
    split
    · exact h
    · by_cases hp : p.errorcode = none
      · rw [checkError_none hp] at h
        cases h; rfl
      · obtain ⟨er, hc⟩ := checkError_ne hp
        rw [hc] at h; cases h

theorem odoRepeat_low (k : Nat) : Low (odoRepeat k) (odoRepeat k) := by
  induction k with
  | zero => exact .pure _
  | succ k ih => exact (Low.access _).bind fun bs => (oemit_low bs).bind fun _ => ih

/-- A check that fails in the default configuration may be missing. -/
theorem Low.guard {α : Type} {c : Prop} [Decidable c] {er : Errno} {x y : M ODecomp α} (h : Low x y) :
    Low (if c then M.fail er else x) (if cfg.errors = true ∧ c then M.fail er else y) := by
  split
  · exact .fail _ _
  · rename_i hc
    rw [if_neg (fun hh => hc hh.2)]
    exact h

theorem odoOp_low (op : Nat) : Low (odoOp e op) (odoOpC cfg e op) := by
  unfold odoOp odoOpC
  cases optSwitch[op]? with
  | some ns => exact (readBits_low cfg e _).bind fun rep => optSteps_low cfg e rep _
  | none =>
    refine .ite ?_ (.ite (oemit_low _) (.fail _ _))
    exact (readBits_low cfg e 6).bind fun rep => (checkError_low cfg).bind fun _ => Low.get.bind fun p =>
      .guard cfg (.guard cfg (odoRepeat_low _))

theorem optIter_low : Low (optIter e) (optIterC cfg e) := by
  unfold optIter optIterC
  exact (readBits_low cfg e 5).bind fun op => (checkError_low cfg).bind fun _ => Low.get.bind fun p =>
    .guard cfg (.ite (.pure _) ((odoOp_low cfg e _).bind fun _ => (checkError_low cfg).bind fun _ => .pure _))

theorem doWhile_low {x y : M ODecomp Bool} (h : Low x y) (fuel : Nat) : Low (M.doWhile x fuel) (M.doWhile y fuel) := by
  induction fuel with
  | zero => exact ⟨fun h => (by cases h), fun h => (by cases h)⟩
  | succ fuel ih => exact h.bind fun b => .ite (.pure _) ih

theorem readBits_out {n : Nat} {p : ODecomp} {v : BitVec 64} {p' : ODecomp} (h : readBits e n p = .ok v p') :
    p'.buf = p.buf ∧ p'.out = p.out := by
  have hset : ∀ q : ODecomp, (q.setError .EINVAL).buf = q.buf ∧ (q.setError .EINVAL).out = q.out := by
    intro q; unfold ODecomp.setError; split <;> exact ⟨rfl, rfl⟩
  unfold readBits at h
  rw [M.get_bind_apply] at h
  split at h
  · cases hw : readWord e p with
    | ok w p1 =>
      rw [M.bind_ok hw] at h
      have h1 : p1.buf = p.buf ∧ p1.out = p.out := by
        unfold readWord at hw
        rw [M.get_bind_apply] at hw
        split at hw
        · cases hw; exact hset p
        · cases ha : load64 e p.inp (8 * p.word) with
          | none => rw [M.bind_def, M.access, ha] at hw; cases hw
          | some a =>
            rw [M.access_bind_some (g := fun p : ODecomp => load64 e p.inp (8 * p.word)) ha] at hw
            cases hw; exact ⟨rfl, rfl⟩
      cases ha : winMiss p.buffer p.bits n w with
      | none => rw [M.bind_def, M.access, ha] at h; cases h
      | some a =>
        rw [M.access_bind_some (g := fun _ => winMiss p.buffer p.bits n w) ha] at h
        cases h; exact h1
    | err er p1 => rw [M.bind_err hw] at h; cases h
    | ub => rw [M.bind_def, hw] at h; cases h
    | timeout => rw [M.bind_def, hw] at h; cases h
  · cases ha : winHit p.buffer p.bits n with
    | none => rw [M.bind_def, M.access, ha] at h; cases h
    | some a =>
      rw [M.access_bind_some (g := fun p : ODecomp => winHit p.buffer p.bits n) ha] at h
      cases h; exact ⟨rfl, rfl⟩

/-- The main part, as far as the output is concerned. -/
theorem optBody_low (aout fuel : Nat) {p : ODecomp} {n : Nat} {p' : ODecomp}
    (h : optBody e aout fuel p = .ok n p') : ∃ p'', optBodyC cfg e aout fuel p = .ok n p'' ∧ p''.buf = p'.buf := by
  have hl := doWhile_low (optIter_low cfg e) fuel
  unfold optBody at h
  unfold optBodyC
  cases hx : M.doWhile (optIter e) fuel p with
  | ok u p1 =>
    rw [M.bind_ok hx] at h
    have hr := readBits_low cfg e 32
    cases hy : readBits e 32 p1 with
    | ok v p2 =>
      rw [M.bind_ok hy] at h
      have he2 : p2.errorcode = none := by
        by_contra hne
        obtain ⟨er, hc⟩ := checkError_ne hne
        rw [M.bind_err hc] at h; cases h
      rw [M.bind_ok (checkError_none he2), M.get_bind_apply] at h
      have he1 : p1.errorcode = none := by
        by_contra hne
        exact hr.keeps hy hne he2
      rw [M.bind_ok (hl.sim hx he1)]
      cases hw : crc32be e aout 0#32 p2.buf p2.out with
      | none => rw [M.bind_def, M.access, hw] at h; cases h
      | some w =>
        have hw' := hw
        rw [M.access_bind_some (g := fun p : ODecomp => crc32be e aout 0#32 p.buf p.out) hw] at h
        split at h
        · cases h
        · rename_i hv
          obtain ⟨rfl, rfl⟩ : p2.out = n ∧ p2 = p' := by cases h; exact ⟨rfl, rfl⟩
          split
          · refine ⟨p2, ?_, rfl⟩
            have hck : checkErrorC cfg p2 = .ok () p2 := by
              unfold checkErrorC
              split
              · exact checkError_none he2
              · rfl
            rw [M.bind_ok (hr.sim hy he2), M.bind_ok hck, M.get_bind_apply,
              M.access_bind_some (g := fun p : ODecomp => crc32be e aout 0#32 p.buf p.out) hw', if_neg hv]
            rfl
          · obtain ⟨hb, ho⟩ := readBits_out e hy
            exact ⟨p1, by rw [ho]; rfl, hb.symm⟩
    | err er p2 => rw [M.bind_err hy] at h; cases h
    | ub => rw [M.bind_def, hy] at h; cases h
    | timeout => rw [M.bind_def, hy] at h; cases h
  | err er p1 => rw [M.bind_err hx] at h; cases h
  | ub => rw [M.bind_def, hx] at h; cases h
  | timeout => rw [M.bind_def, hx] at h; cases h

/-! ## The default configuration -/

theorem readWordC_std (c : Bool) : readWordC ⟨true, c⟩ e = readWord e := by
  unfold readWordC readWord
  simp only [true_and]

theorem readBitsC_std (c : Bool) (n : Nat) : readBitsC ⟨true, c⟩ e n = readBits e n := by
  unfold readBitsC readBits
  simp only [readWordC_std]

theorem odoIndexC_std (c : Bool) (size index fsize : Nat) :
    odoIndexC ⟨true, c⟩ size index fsize = odoIndex size index fsize := by
  funext p
  unfold odoIndexC odoIndex
  rw [M.get_bind_apply, M.get_bind_apply]
  simp only [true_and]
  split
  · rfl
  · rename_i hc
    have hrd : roundDown p.out 8 ≤ p.out := by unfold roundDown; omega
    have hs : copySrc p (indexOffset index size fsize (roundDown p.out 8)) size =
        readBytes p.buf (indexOffset index size fsize (roundDown p.out 8)) size := by
      unfold copySrc
      rw [if_neg (by omega)]
    exact access_congr hs

theorem optStepsC_std (c : Bool) (rep : BitVec 64) (ss : List OptStep) :
    optStepsC ⟨true, c⟩ e rep ss = optSteps e rep ss := by
  induction ss with
  | nil => rfl
  | cons s ss ih =>
    unfold optStepsC optSteps
    rw [ih]
    cases s with
    | data n shift width => rfl
    | index n shift width fsize =>
      unfold optStepC optStep
      simp only [odoIndexC_std]

theorem checkErrorC_std (c : Bool) : checkErrorC ⟨true, c⟩ = checkError := rfl

theorem odoOpC_std (c : Bool) (op : Nat) : odoOpC ⟨true, c⟩ e op = odoOp e op := by
  unfold odoOpC odoOp
  simp only [readBitsC_std, checkErrorC_std, true_and, optStepsC_std]
  cases optSwitch[op]? <;> rfl

theorem optIterC_std (c : Bool) : optIterC ⟨true, c⟩ e = optIter e := by
  unfold optIterC optIter
  simp only [readBitsC_std, checkErrorC_std, true_and, odoOpC_std]

theorem optBodyC_std (aout fuel : Nat) : optBodyC ⟨true, true⟩ e aout fuel = optBody e aout fuel := by
  unfold optBodyC optBody
  simp only [readBitsC_std, checkErrorC_std, optIterC_std, if_true]

/-! ## Progress without error handling -/

/-- The number of bits not read yet. -/
def left (p : ODecomp) : Nat := (8 * p.inp.length - 64 * p.word) + p.bits

/-- The computation terminates, reads at least `n` bits, keeps the size of the buffer and fails with `-EINVAL` only. -/
def Prog {α : Type} (n : Nat) (x : M ODecomp α) : Prop :=
  ∀ p, match x p with
    | .ok _ p' => p'.buf.length = p.buf.length ∧ left p' + n ≤ left p
    | .err er p' => er = .EINVAL ∧ p'.buf.length = p.buf.length
    | .ub => True
    | .timeout => False

theorem Prog.bind {α β : Type} {n m : Nat} {x : M ODecomp α} {f : α → M ODecomp β} (hx : Prog n x)
    (hf : ∀ a, Prog m (f a)) : Prog (n + m) (x >>= f) := by
  intro p
  have h1 := hx p
  rw [M.bind_def]
  cases hr : x p with
  | ok a p1 =>
    rw [hr] at h1
    have h2 := hf a p1
    dsimp only at h1 ⊢
    cases hr2 : f a p1 with
    | ok b p2 => rw [hr2] at h2; exact ⟨h2.1.trans h1.1, by have := h1.2; have := h2.2; omega⟩
    | err er p2 => rw [hr2] at h2; exact ⟨h2.1, h2.2.trans h1.1⟩
    | ub => trivial
    | timeout => rw [hr2] at h2; exact h2
  | err er p1 => rw [hr] at h1; exact h1
  | ub => trivial
  | timeout => rw [hr] at h1; exact h1

theorem Prog.mono {α : Type} {n m : Nat} {x : M ODecomp α} (h : Prog n x) (hm : m ≤ n) : Prog m x := by
  intro p
  have h1 := h p
  cases hr : x p with
  | ok a p1 => rw [hr] at h1; exact ⟨h1.1, by have := h1.2; omega⟩
  | err er p1 => rw [hr] at h1; exact h1
  | ub => trivial
  | timeout => rw [hr] at h1; exact h1

theorem Prog.bind0 {α β : Type} {n : Nat} {x : M ODecomp α} {f : α → M ODecomp β} (hx : Prog 0 x)
    (hf : ∀ a, Prog n (f a)) : Prog n (x >>= f) := (hx.bind hf).mono (by omega)

theorem Prog.ite {α : Type} {n : Nat} {c : Prop} [Decidable c] {x y : M ODecomp α} (hx : Prog n x) (hy : Prog n y) :
    Prog n (if c then x else y) := by
  split
  · exact hx
  · exact hy

theorem Prog.pure {α : Type} (a : α) : Prog 0 (Pure.pure a : M ODecomp α) := fun _ => ⟨rfl, Nat.le_refl _⟩
theorem Prog.get : Prog 0 (M.get : M ODecomp ODecomp) := fun _ => ⟨rfl, Nat.le_refl _⟩
theorem Prog.einval {α : Type} {n : Nat} : Prog n (M.fail .EINVAL : M ODecomp α) := fun _ => ⟨rfl, rfl⟩

theorem Prog.access {α : Type} (f : ODecomp → Option α) : Prog 0 (M.access f) := by
  intro p
  unfold M.access
  cases f p with
  | none => trivial
  | some a => exact ⟨rfl, Nat.le_refl _⟩

theorem readBitsC_prog {cfg : OptCfg} (hc : cfg.errors = false) {n : Nat} (hn : n ≤ 64) : Prog n (readBitsC cfg e n) := by
  intro p
  unfold readBitsC
  rw [M.get_bind_apply]
  by_cases hb : p.bits < n
  · rw [if_pos hb]
    have hw : readWordC cfg e p = match load64 e p.inp (8 * p.word) with
        | some w => .ok (swapBe64 e w) { p with word := p.word + 1 }
        | none => .ub := by
      unfold readWordC
      rw [M.get_bind_apply, if_neg (by rw [hc]; simp)]
      cases hl : load64 e p.inp (8 * p.word) with
      | none => rw [M.bind_def, M.access, hl]
      | some w => rw [M.access_bind_some (g := fun p : ODecomp => load64 e p.inp (8 * p.word)) hl]; rfl
    cases hl : load64 e p.inp (8 * p.word) with
    | none => rw [hl] at hw; rw [M.bind_def, hw]; trivial
    | some w =>
      rw [hl] at hw
      rw [M.bind_ok hw]
      have hlen : 8 * p.word + 8 ≤ p.inp.length := by
        by_contra hgt
        unfold load64 readBytes at hl
        rw [if_neg hgt] at hl
        cases hl
      cases hm : winMiss p.buffer p.bits n (swapBe64 e w) with
      | none => rw [M.bind_def, M.access]; trivial
      | some r =>
        rw [M.access_bind_some (g := fun _ => some r) rfl]
        have hr : r.2.2 = p.bits + 64 - n := by
          unfold winMiss at hm
          split at hm <;> cases hm
          rfl
        refine ⟨rfl, ?_⟩
        show (8 * p.inp.length - 64 * (p.word + 1)) + r.2.2 + n ≤ (8 * p.inp.length - 64 * p.word) + p.bits
        omega
  · rw [if_neg hb]
    cases hm : winHit p.buffer p.bits n with
    | none => rw [M.bind_def, M.access, hm]; trivial
    | some r =>
      rw [M.access_bind_some (g := fun p : ODecomp => winHit p.buffer p.bits n) hm]
      have hr : r.2.2 = p.bits - n := by
        unfold winHit at hm
        split at hm <;> cases hm
        rfl
      refine ⟨rfl, ?_⟩
      show (8 * p.inp.length - 64 * p.word) + r.2.2 + n ≤ (8 * p.inp.length - 64 * p.word) + p.bits
      omega

theorem oemit_prog (bs : List Byte) : Prog 0 (oemit bs) := by
  intro p
  unfold oemit
  by_cases h : p.out + bs.length ≤ p.buf.length
  · rw [M.update_bind_some (g := fun p : ODecomp => (writeBytes p.buf p.out bs).map fun b => { p with buf := b })
      (s' := { p with buf := p.buf.take p.out ++ bs ++ p.buf.drop (p.out + bs.length) })
      (by simp only [writeBytes, if_pos h, Option.map_some])]
    refine ⟨?_, Nat.le_refl _⟩
    show (p.buf.take p.out ++ bs ++ p.buf.drop (p.out + bs.length)).length = p.buf.length
    simp only [List.length_append, List.length_take, List.length_drop]
    omega
  · have hu : M.update (fun p : ODecomp => (writeBytes p.buf p.out bs).map fun b => { p with buf := b }) p = .ub := by
      unfold M.update
      simp only [writeBytes, if_neg h, Option.map_none]
    rw [M.bind_def, hu]
    trivial

theorem odoData_prog (n : Nat) (d : BitVec 64) : Prog 0 (odoData e n d) := by
  unfold odoData
  exact .ite (oemit_prog _) (.ite (oemit_prog _) (.ite (oemit_prog _) fun _ => ⟨rfl, Nat.le_refl _⟩))

theorem odoRepeat_prog (k : Nat) : Prog 0 (odoRepeat k) := by
  induction k with
  | zero => exact .pure _
  | succ k ih => exact .bind0 (.access _) fun bs => .bind0 (oemit_prog bs) fun _ => ih

theorem odoIndexC_prog {cfg : OptCfg} (hc : cfg.errors = false) (size index fsize : Nat) :
    Prog 0 (odoIndexC cfg size index fsize) := by
  unfold odoIndexC
  refine .bind0 .get fun p => ?_
  rw [if_neg (by rw [hc]; simp)]
  exact .bind0 (.access _) fun bs => oemit_prog bs

theorem optStepsC_prog {cfg : OptCfg} (hc : cfg.errors = false) (rep : BitVec 64) (ss : List OptStep) :
    Prog 0 (optStepsC cfg e rep ss) := by
  induction ss with
  | nil => exact .pure _
  | cons s ss ih =>
    refine .bind0 ?_ fun _ => ih
    cases s with
    | data n shift width => exact .bind0 (.access _) fun v => odoData_prog e n v
    | index n shift width fsize => exact .bind0 (.access _) fun v => odoIndexC_prog hc n _ _

theorem optSwitch_le {op n : Nat} {ss : List OptStep} (h : optSwitch[op]? = some (n, ss)) : n ≤ 64 := by
  have hm := List.mem_of_getElem? h
  have : ∀ r ∈ optSwitch, r.1 ≤ 64 := by decide
  exact this _ hm

theorem odoOpC_prog {cfg : OptCfg} (hc : cfg.errors = false) (op : Nat) : Prog 0 (odoOpC cfg e op) := by
  unfold odoOpC
  cases h : optSwitch[op]? with
  | some ns =>
    exact .bind0 ((readBitsC_prog e hc (optSwitch_le h)).mono (Nat.zero_le _)) fun rep => optStepsC_prog e hc rep _
  | none =>
    refine .ite ?_ (.ite (oemit_prog _) .einval)
    refine .bind0 ((readBitsC_prog e hc (by omega)).mono (Nat.zero_le _)) fun rep => .bind0 ?_ fun _ =>
      .bind0 .get fun p => ?_
    · unfold checkErrorC; rw [hc]; exact .pure _
    · rw [if_neg (by rw [hc]; simp), if_neg (by rw [hc]; simp)]
      exact odoRepeat_prog _

theorem checkErrorC_prog {cfg : OptCfg} (hc : cfg.errors = false) : Prog 0 (checkErrorC cfg) := by
  unfold checkErrorC; rw [hc]; exact .pure _

theorem optIterC_prog {cfg : OptCfg} (hc : cfg.errors = false) : Prog 5 (optIterC cfg e) := by
  unfold optIterC
  refine ((readBitsC_prog e hc (n := 5) (by omega)).bind (m := 0) fun op =>
    .bind0 (checkErrorC_prog hc) fun _ => .bind0 .get fun p => ?_).mono (by omega)
  rw [if_neg (by rw [hc]; simp)]
  exact .ite (.pure _) (.bind0 (odoOpC_prog e hc _) fun _ => .bind0 (checkErrorC_prog hc) fun _ => .pure _)

/-- A loop each of whose iterations reads five bits ends. -/
theorem doWhile_prog {x : M ODecomp Bool} (hx : Prog 5 x) (fuel : Nat) (p : ODecomp) (hf : left p < 5 * fuel) :
    match M.doWhile x fuel p with
    | .ok _ p' => p'.buf.length = p.buf.length
    | .err er p' => er = .EINVAL ∧ p'.buf.length = p.buf.length
    | .ub => True
    | .timeout => False := by
  induction fuel generalizing p with
  | zero => omega
  | succ fuel ih =>
    rw [M.doWhile, M.bind_def]
    have h1 := hx p
    cases hr : x p with
    | ok b p1 =>
      rw [hr] at h1
      dsimp only at h1 ⊢
      cases b with
      | true => exact h1.1
      | false =>
        have h2 := ih p1 (by omega)
        rw [if_neg (by decide)]
        cases hr2 : M.doWhile x fuel p1 with
        | ok _ p2 => rw [hr2] at h2; exact h2.trans h1.1
        | err er p2 => rw [hr2] at h2; exact ⟨h2.1, h2.2.trans h1.1⟩
        | ub => trivial
        | timeout => rw [hr2] at h2; exact h2
    | err er p1 => rw [hr] at h1; exact h1
    | ub => trivial
    | timeout => rw [hr] at h1; exact h1

theorem optBodyC_prog {cfg : OptCfg} (hc : cfg.errors = false) (aout fuel : Nat) (p : ODecomp) (hf : left p < 5 * fuel) :
    match optBodyC cfg e aout fuel p with
    | .ok _ p' => p'.buf.length = p.buf.length
    | .err er p' => er = .EINVAL ∧ p'.buf.length = p.buf.length
    | .ub => True
    | .timeout => False := by
  unfold optBodyC
  have h1 := doWhile_prog (optIterC_prog e hc) fuel p hf
  have h2 : Prog 0 (if cfg.crc = true then do
      let crc ← readBitsC cfg e 32
      checkErrorC cfg
      let p ← M.get
      let want ← M.access fun p => crc32be e aout 0#32 p.buf p.out
      if crc ≠ want.setWidth 64 then M.fail .EINVAL
      else Pure.pure p.out
    else do
      let p ← M.get
      Pure.pure p.out) := by
    refine .ite ?_ (.bind0 .get fun _ => .pure _)
    exact .bind0 ((readBitsC_prog e hc (by omega)).mono (Nat.zero_le _)) fun _ => .bind0 (checkErrorC_prog hc) fun _ =>
      .bind0 .get fun p => .bind0 (.access _) fun w => .ite .einval (.pure _)
  rw [M.bind_def]
  cases hr : M.doWhile (optIterC cfg e) fuel p with
  | ok u p1 =>
    rw [hr] at h1
    dsimp only at h1 ⊢
    have h3 := h2 p1
    split <;> rename_i hz <;> rw [hz] at h3
    · exact h3.1.trans h1
    · exact ⟨h3.1, h3.2.trans h1⟩
    · trivial
    · exact h3
  | err er p1 => rw [hr] at h1; exact h1
  | ub => trivial
  | timeout => rw [hr] at h1; exact h1

end Config

end Lib842
