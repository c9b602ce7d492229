import Verif.Model.BranchFreeCfg
import Verif.Proofs.BranchFree
import Verif.Proofs.ConfigCrc
/-!
# `BRANCH_FREE` together with the other switches
-/

namespace Lib842
open Spec ODecomp

namespace Config

variable (S : OverShift) (cfg : OptCfg) (e : Endian)

/-! ## Without error handling, compared with error handling -/

theorem bfGetIndex_low (size index fsize : Nat) : Low (bfGetIndex size index fsize) (bfGetIndexC cfg size index fsize) := by
  constructor
  · intro p a p' h he
    unfold bfGetIndex at h
    rw [M.get_bind_apply] at h
    split at h
    · cases h; simp
    · cases h; exact he
  · intro p a p' h he
    unfold bfGetIndex at h
    unfold bfGetIndexC
    rw [M.get_bind_apply] at h ⊢
    split at h
    · cases h; simp at he
    · rename_i hc
      rw [if_neg (fun hh => hc hh.2)]
      exact h

/-- What follows `get_index` in an iteration; `chk` is the check of the error code and `next`
the new `opbits`. -/
def bfRest (chk : M ODecomp Unit) (next isIndex dst : Nat) (l : Nat × BitVec 64 × Nat) (x y : BitVec 64)
    (offset : Nat) : M ODecomp (Nat × BitVec 64 × Nat) := do
  chk
  let bs ← M.access fun p => readBytes p.buf (offset * isIndex) (dst * isIndex)
  let y ← M.access fun _ => load64 e (bs ++ (wordBytes64 e y).drop (dst * isIndex)) 0
  let y ← M.access fun _ => S.r (swapBe64 e y) ((64 : Int) - ((dst <<< 3 : Nat) : Int))
  let x := y * BitVec.ofNat 64 isIndex ||| x
  let x ← M.access fun _ => S.l x ((64 : Int) - ((dst <<< 3 : Nat) : Int) - (l.2.2 : Int))
  pure (next, l.2.1 ||| x, l.2.2 + dst <<< 3)

/-- An iteration with `get` in the place of `get_index`. -/
def bfFieldG (get : Nat → M ODecomp Nat) (chk : M ODecomp Unit) (next : Nat) (params : BitVec 64)
    (isIndex dst numBits : Nat) (l : Nat × BitVec 64 × Nat) : M ODecomp (Nat × BitVec 64 × Nat) :=
  M.access (fun _ => S.r (BitVec.allOnes 64) ((64 : Int) - (numBits : Int))) >>= fun ones =>
  M.access (fun _ => S.r params ((l.1 : Int) - (numBits : Int))) >>= fun v =>
  get (if isIndex = 0 then 0#64 else v &&& ((if numBits ≠ 0 then BitVec.allOnes 64 else 0#64) &&& ones)).toNat >>=
  bfRest S e chk next isIndex dst l
    (if isIndex = 0 then v &&& ((if numBits ≠ 0 then BitVec.allOnes 64 else 0#64) &&& ones) else 0#64)
    (if isIndex = 0 then 0#64 else v &&& ((if numBits ≠ 0 then BitVec.allOnes 64 else 0#64) &&& ones))

theorem bfFieldC_eq (params : BitVec 64) (isIndex dst numBits : Nat) (l : Nat × BitVec 64 × Nat) :
    bfFieldC S cfg e params isIndex dst numBits l =
      bfFieldG S e (fun i => if cfg.errors = true ∧ isIndex = 0 then pure 0 else bfGetIndexC cfg dst i (oclFifoSize dst))
        (checkErrorC cfg) ((l.1 + 256 - numBits) % 256) params isIndex dst numBits l := by
  unfold bfFieldC bfFieldG bfRest
  by_cases h : cfg.errors = true ∧ isIndex = 0
  · simp only [if_pos h]
  · simp only [if_neg h]

theorem bfField_eq (params : BitVec 64) (isIndex dst numBits : Nat) (l : Nat × BitVec 64 × Nat) :
    bfField S e params isIndex dst numBits l =
      bfFieldG S e (fun i => if isIndex ≠ 0 then bfGetIndex dst i (oclFifoSize dst) else pure 0)
        checkError (l.1 - numBits) params isIndex dst numBits l := by
  unfold bfField bfFieldG bfRest
  by_cases h : isIndex ≠ 0
  · simp only [if_pos h]
  · simp only [if_neg h]

/-- The offset does not matter for a field that is not an index. -/
theorem bfOffset (chk : M ODecomp Unit) (next isIndex dst : Nat) (l : Nat × BitVec 64 × Nat) (x y : BitVec 64)
    (i f : Nat) :
    ((if cfg.errors = true ∧ isIndex = 0 then pure 0 else bfGetIndexC cfg dst i f) >>=
        bfRest S e chk next isIndex dst l x y) =
      ((if isIndex ≠ 0 then bfGetIndexC cfg dst i f else pure 0) >>=
        bfRest S e chk next isIndex dst l x y) := by
  by_cases hi : isIndex = 0
  · rw [if_neg (c := isIndex ≠ 0) (fun h => h hi)]
    by_cases he : cfg.errors = true
    · rw [if_pos ⟨he, hi⟩]
    · rw [if_neg (fun h => he h.1)]
      funext p
      have hg : ∃ o, bfGetIndexC cfg dst i f p = .ok o p := by
        unfold bfGetIndexC
        rw [M.get_bind_apply, if_neg (fun h => he h.1)]
        exact ⟨_, rfl⟩
      obtain ⟨o, ho⟩ := hg
      rw [M.bind_ok ho, M.bind_ok (M.pure_apply ..)]
      unfold bfRest
      rw [hi]
      simp only [Nat.mul_zero]
  · rw [if_neg (fun h => hi h.2), if_pos hi]

theorem bfField_low (params : BitVec 64) (isIndex dst numBits : Nat) (l : Nat × BitVec 64 × Nat)
    (hl : numBits ≤ l.1) (h256 : l.1 < 256) :
    Low (bfField S e params isIndex dst numBits l) (bfFieldC S cfg e params isIndex dst numBits l) := by
  have hw : (l.1 + 256 - numBits) % 256 = l.1 - numBits := by omega
  rw [bfField_eq, bfFieldC_eq, hw]
  unfold bfFieldG
  refine (Low.access _).bind fun ones => (Low.access _).bind fun v => ?_
  rw [bfOffset]
  refine Low.bind (.ite (bfGetIndex_low cfg _ _ _) (.pure _)) fun o => ?_
  unfold bfRest
  exact (checkError_low cfg).bind fun _ =>
    (Low.access _).bind fun bs => (Low.access _).bind fun y => (Low.access _).bind fun y =>
    (Low.access _).bind fun x => .pure _

theorem bfField_next {params : BitVec 64} {isIndex dst numBits : Nat} {l l' : Nat × BitVec 64 × Nat} {p p' : ODecomp}
    (h : bfField S e params isIndex dst numBits l p = .ok l' p') : l'.1 = l.1 - numBits := by
  have hk : ∀ {α β : Type} {x : M ODecomp α} {f : α → M ODecomp β} {p : ODecomp} {b : β} {p' : ODecomp},
      (x >>= f) p = .ok b p' → ∃ a q, f a q = .ok b p' := by
    intro α β x f p b p' h
    rw [M.bind_def] at h
    cases hx : x p with
    | ok a q => rw [hx] at h; exact ⟨a, q, h⟩
    | err er q => rw [hx] at h; cases h
    | ub => rw [hx] at h; cases h
    | timeout => rw [hx] at h; cases h
  rw [bfField_eq] at h
  unfold bfFieldG at h
  obtain ⟨_, _, h⟩ := hk h
  obtain ⟨_, _, h⟩ := hk h
  obtain ⟨_, _, h⟩ := hk h
  unfold bfRest at h
  obtain ⟨_, _, h⟩ := hk h
  obtain ⟨_, _, h⟩ := hk h
  obtain ⟨_, _, h⟩ := hk h
  obtain ⟨_, _, h⟩ := hk h
  obtain ⟨_, _, h⟩ := hk h
  cases h
  rfl

/-- `Low.bind` for a continuation that is compared for the possible results only. -/
theorem Low.bind_of {α β : Type} {x y : M ODecomp α} {f g : α → M ODecomp β} (h : Low x y)
    (hf : ∀ a, (∃ p q, x p = .ok a q) → Low (f a) (g a)) : Low (x >>= f) (y >>= g) := by
  constructor
  · intro p b p' hb he
    cases hx : x p with
    | ok a p1 =>
      rw [M.bind_ok hx] at hb
      exact (hf a ⟨_, _, hx⟩).keeps hb (h.keeps hx he)
    | err er p1 => rw [M.bind_err hx] at hb; cases hb
    | ub => rw [M.bind_def, hx] at hb; cases hb
    | timeout => rw [M.bind_def, hx] at hb; cases hb
  · intro p b p' hb he
    cases hx : x p with
    | ok a p1 =>
      rw [M.bind_ok hx] at hb
      have h1 : p1.errorcode = none := by
        by_contra hne
        exact (hf a ⟨_, _, hx⟩).keeps hb hne he
      rw [M.bind_ok (h.sim hx h1)]
      exact (hf a ⟨_, _, hx⟩).sim hb he
    | err er p1 => rw [M.bind_err hx] at hb; cases hb
    | ub => rw [M.bind_def, hx] at hb; cases hb
    | timeout => rw [M.bind_def, hx] at hb; cases hb

theorem bfFields_low (params : BitVec 64) (fs : List (Nat × Nat × Nat)) (l : Nat × BitVec 64 × Nat)
    (hs : (fs.map fun f => f.2.2).sum ≤ l.1) (h256 : l.1 < 256) :
    Low (bfFields S e params fs l) (bfFieldsC S cfg e params fs l) := by
  induction fs generalizing l with
  | nil => exact .pure _
  | cons f fs ih =>
    simp only [List.map_cons, List.sum_cons] at hs
    refine (bfField_low S cfg e params _ _ _ l (by omega) h256).bind_of fun l' h => ?_
    obtain ⟨p, q, h⟩ := h
    have := bfField_next S e h
    exact ih l' (by omega) (by omega)

theorem oclRow_sum : ∀ op, op < 25 → ((oclRow op).map fun f => f.2.2).sum ≤ oclOpbits op ∧ oclOpbits op ≤ 64 := by
  decide +kernel

theorem bfDoOp_low {op : Nat} (hop : op ≠ 25) : Low (bfDoOp S e op) (bfDoOpC S cfg e op) := by
  unfold bfDoOp bfDoOpC
  by_cases h : op ≥ 26
  · rw [if_pos h]; exact .fail _ _
  · rw [if_neg h, if_neg (fun hh => h hh.2)]
    obtain ⟨h1, h2⟩ := oclRow_sum op (by omega)
    exact (readBits_low cfg e _).bind fun params => (checkError_low cfg).bind fun _ =>
      (bfFields_low S cfg e params _ _ h1 (by dsimp only; omega)).bind fun l => Low.get.bind fun p =>
        .guard cfg (oemit_low _)

theorem bfOp_low (op : Nat) : Low (bfOp S e op) (bfOpC S cfg e op) := by
  unfold bfOp bfOpC
  refine .ite ?_ (.ite (oemit_low _) ?_)
  · exact (readBits_low cfg e 6).bind fun rep => (checkError_low cfg).bind fun _ => Low.get.bind fun p =>
      .guard cfg (.guard cfg (odoRepeat_low _))
  · by_cases h : op = 0x19
    · rw [if_pos h, if_pos h]
      exact (readBits_low cfg e 8).bind fun v => (checkError_low cfg).bind fun _ =>
        (bfGetIndex_low cfg _ _ _).bind fun o => (checkError_low cfg).bind fun _ =>
        (Low.access _).bind fun bs => oemit_low bs
    · rw [if_neg h, if_neg h]
      exact bfDoOp_low S cfg e (by omega)

theorem bfIter_low : Low (bfIter S e) (bfIterC S cfg e) := by
  unfold bfIter bfIterC
  exact (readBits_low cfg e 5).bind fun op => (checkError_low cfg).bind fun _ => Low.get.bind fun p =>
    .guard cfg (.ite (.pure _) ((bfOp_low S cfg e _).bind fun _ => (checkError_low cfg).bind fun _ => .pure _))

/-! ## With error handling: the functions of `Model/BranchFree` -/

theorem bfGetIndexC_std (c : Bool) (size index fsize : Nat) :
    bfGetIndexC ⟨true, c⟩ size index fsize = bfGetIndex size index fsize := by
  unfold bfGetIndexC bfGetIndex
  simp only [true_and]

theorem bfField_std (c : Bool) (params : BitVec 64) (isIndex dst numBits : Nat) (l : Nat × BitVec 64 × Nat)
    (hl : numBits ≤ l.1) (h256 : l.1 < 256) :
    bfFieldC S ⟨true, c⟩ e params isIndex dst numBits l = bfField S e params isIndex dst numBits l := by
  have hw : (l.1 + 256 - numBits) % 256 = l.1 - numBits := by omega
  rw [bfField_eq, bfFieldC_eq, hw]
  simp only [bfGetIndexC_std, checkErrorC_std, true_and, ne_eq, ite_not]

theorem bind_congr_of {α β : Type} {x : M ODecomp α} {f g : α → M ODecomp β}
    (hf : ∀ a, (∃ p q, x p = .ok a q) → f a = g a) : (x >>= f) = (x >>= g) := by
  funext p
  rw [M.bind_def, M.bind_def]
  cases hx : x p with
  | ok a q => dsimp only; rw [hf a ⟨p, q, hx⟩]
  | err er q => rfl
  | ub => rfl
  | timeout => rfl

theorem bfFields_std (c : Bool) (params : BitVec 64) (fs : List (Nat × Nat × Nat)) (l : Nat × BitVec 64 × Nat)
    (hs : (fs.map fun f => f.2.2).sum ≤ l.1) (h256 : l.1 < 256) :
    bfFieldsC S ⟨true, c⟩ e params fs l = bfFields S e params fs l := by
  induction fs generalizing l with
  | nil => rfl
  | cons f fs ih =>
    simp only [List.map_cons, List.sum_cons] at hs
    unfold bfFieldsC bfFields
    rw [bfField_std S e c params _ _ _ l (by omega) h256]
    refine bind_congr_of fun l' h => ?_
    obtain ⟨p, q, h⟩ := h
    have := bfField_next S e h
    exact ih l' (by omega) (by omega)

theorem bfDoOpC_std (c : Bool) {op : Nat} (hop : op ≠ 25) : bfDoOpC S ⟨true, c⟩ e op = bfDoOp S e op := by
  unfold bfDoOp bfDoOpC
  by_cases h : op ≥ 26
  · rw [if_pos h, if_pos ⟨rfl, h⟩]
  · rw [if_neg h, if_neg (fun hh => h hh.2)]
    obtain ⟨h1, h2⟩ := oclRow_sum op (by omega)
    simp only [readBitsC_std, checkErrorC_std, true_and]
    congr 1
    funext params
    rw [bfFields_std S e c params _ _ h1 (by dsimp only; omega)]

theorem bfOpC_std (c : Bool) (op : Nat) : bfOpC S ⟨true, c⟩ e op = bfOp S e op := by
  unfold bfOp bfOpC
  simp only [readBitsC_std, checkErrorC_std, true_and, bfGetIndexC_std]
  by_cases h : op = 0x19
  · subst h; rfl
  · rw [bfDoOpC_std S e c (by omega)]

theorem bfIterC_std (c : Bool) : bfIterC S ⟨true, c⟩ e = bfIter S e := by
  unfold bfIterC bfIter
  simp only [readBitsC_std, checkErrorC_std, true_and, bfOpC_std]

theorem bfBodyC_std (aout fuel : Nat) : bfBodyC S ⟨true, true⟩ e aout fuel = bfBody S e aout fuel := by
  unfold bfBodyC bfBody
  simp only [readBitsC_std, checkErrorC_std, bfIterC_std, if_true]

/-! ## The branch-free decompressor and the other one -/

theorem bfBodyC_same {S : OverShift} (hS : S.Right) (e : Endian) (c : Bool) (aout fuel : Nat) {p : ODecomp}
    (hp : optView.Inv p) : SameOutcome (bfBodyC S ⟨true, c⟩ e aout fuel p) (optBodyC ⟨true, c⟩ e aout fuel p) := by
  unfold bfBodyC optBodyC
  rw [bfIterC_std, optIterC_std]
  rcases bfLoop_same hS e fuel hp with h | ⟨er, q, q', h1, h2⟩
  · rw [M.bind_def, M.bind_def, h]; exact .inl rfl
  · rw [M.bind_err h1, M.bind_err h2]
    exact .inr ⟨er, q, q', rfl, rfl⟩

/-- The main part with other switches. -/
theorem bfBodyC_low (er c c' : Bool) (aout fuel : Nat) {p : ODecomp} {n : Nat} {p' : ODecomp}
    (hcc : c = true ∨ c' = false)
    (hp : ∀ {q}, M.doWhile (bfIter S e) fuel p = .ok () q → q.errorcode = none)
    (h : bfBodyC S ⟨true, c⟩ e aout fuel p = .ok n p') :
    ∃ p'', bfBodyC S ⟨er, c'⟩ e aout fuel p = .ok n p'' ∧ p''.buf = p'.buf := by
  have hl := doWhile_low (bfIter_low S ⟨er, c'⟩ e) fuel
  unfold bfBodyC at h ⊢
  rw [bfIterC_std] at h
  cases hx : M.doWhile (bfIter S e) fuel p with
  | ok u p1 =>
    rw [M.bind_ok hx] at h
    have he1 : p1.errorcode = none := hp hx
    rw [M.bind_ok (hl.sim hx he1)]
    cases c with
    | false =>
      obtain rfl : c' = false := by simpa using hcc
      rw [if_neg (by simp)] at h ⊢
      exact ⟨p', h, rfl⟩
    | true =>
      rw [if_pos rfl, readBitsC_std, checkErrorC_std] at h
      have hr := readBits_low ⟨er, c'⟩ e 32
      cases hy : readBits e 32 p1 with
      | ok v p2 =>
        rw [M.bind_ok hy] at h
        have he2 : p2.errorcode = none := by
          by_contra hne
          obtain ⟨er', hc⟩ := checkError_ne hne
          rw [M.bind_err hc] at h; cases h
        rw [M.bind_ok (checkError_none he2), M.get_bind_apply] at h
        cases hw : crc32be e aout 0#32 p2.buf p2.out with
        | none => rw [M.bind_def, M.access, hw] at h; cases h
        | some w =>
          have hw' := hw
          rw [M.access_bind_some (g := fun p : ODecomp => crc32be e aout 0#32 p.buf p.out) hw] at h
          split at h
          · cases h
          · rename_i hv
            obtain ⟨rfl, rfl⟩ : p2.out = n ∧ p2 = p' := by cases h; exact ⟨rfl, rfl⟩
            split
            · refine ⟨p2, ?_, rfl⟩
              have hck : checkErrorC ⟨er, c'⟩ p2 = .ok () p2 := by
                unfold checkErrorC
                split
                · exact checkError_none he2
                · rfl
              rw [M.bind_ok (hr.sim hy he2), M.bind_ok hck, M.get_bind_apply,
                M.access_bind_some (g := fun p : ODecomp => crc32be e aout 0#32 p.buf p.out) hw', if_neg hv]
              rfl
            · obtain ⟨hb, ho⟩ := readBits_out e hy
              exact ⟨p1, by rw [ho]; rfl, hb.symm⟩
      | err er' p2 => rw [M.bind_err hy] at h; cases h
      | ub => rw [M.bind_def, hy] at h; cases h
      | timeout => rw [M.bind_def, hy] at h; cases h
  | err er' p1 => rw [M.bind_err hx] at h; cases h
  | ub => rw [M.bind_def, hx] at h; cases h
  | timeout => rw [M.bind_def, hx] at h; cases h

/-! ## Progress without error handling -/

theorem bfGetIndexC_prog {cfg : OptCfg} (hc : cfg.errors = false) (size index fsize : Nat) :
    Prog 0 (bfGetIndexC cfg size index fsize) := by
  unfold bfGetIndexC
  refine .bind0 .get fun p => ?_
  rw [if_neg (by rw [hc]; simp)]
  exact .pure _

theorem bfFieldC_prog {cfg : OptCfg} (hc : cfg.errors = false) (params : BitVec 64) (isIndex dst numBits : Nat)
    (l : Nat × BitVec 64 × Nat) : Prog 0 (bfFieldC S cfg e params isIndex dst numBits l) := by
  rw [bfFieldC_eq]
  unfold bfFieldG
  refine .bind0 (.access _) fun _ => .bind0 (.access _) fun _ =>
    .bind0 (.ite (.pure _) (bfGetIndexC_prog hc _ _ _)) fun _ => ?_
  unfold bfRest
  exact .bind0 (checkErrorC_prog hc) fun _ =>
    .bind0 (.access _) fun _ => .bind0 (.access _) fun _ => .bind0 (.access _) fun _ => .bind0 (.access _) fun _ => .pure _

theorem bfFieldsC_prog {cfg : OptCfg} (hc : cfg.errors = false) (params : BitVec 64) (fs : List (Nat × Nat × Nat))
    (l : Nat × BitVec 64 × Nat) : Prog 0 (bfFieldsC S cfg e params fs l) := by
  induction fs generalizing l with
  | nil => exact .pure _
  | cons f fs ih => exact .bind0 (bfFieldC_prog S e hc params _ _ _ l) fun l' => ih l'

/-- More than 64 bits cannot be read. -/
theorem readBitsC_prog0 {cfg : OptCfg} (hc : cfg.errors = false) (n : Nat) : Prog 0 (readBitsC cfg e n) := by
  by_cases hn : n ≤ 64
  · exact (readBitsC_prog e hc hn).mono (Nat.zero_le _)
  · have hs : ∀ x : BitVec 64, cshr x (64 - (n : Int)) = none := by
      intro x; unfold cshr; rw [if_neg (by omega)]
    have h1 : ∀ b k w, winMiss b k n w = none := by
      intro b k w; unfold winMiss; rw [hs]
    have h2 : ∀ b k, winHit b k n = none := by
      intro b k; unfold winHit; rw [hs]
    intro p
    unfold readBitsC
    rw [M.get_bind_apply]
    by_cases hb : p.bits < n
    · rw [if_pos hb, M.bind_def]
      have hw : ∀ er q, readWordC cfg e p ≠ .err er q := by
        intro er q h
        unfold readWordC at h
        rw [M.get_bind_apply, if_neg (by rw [hc]; simp), M.bind_def] at h
        unfold M.access at h
        cases hl : load64 e p.inp (8 * p.word) with
        | none => simp only [hl] at h; cases h
        | some w => simp only [hl] at h; cases h
      have ht : readWordC cfg e p ≠ .timeout := by
        intro h
        unfold readWordC at h
        rw [M.get_bind_apply, if_neg (by rw [hc]; simp), M.bind_def] at h
        unfold M.access at h
        cases hl : load64 e p.inp (8 * p.word) with
        | none => simp only [hl] at h; cases h
        | some w => simp only [hl] at h; cases h
      cases hr : readWordC cfg e p with
      | ok w q =>
        dsimp only
        rw [M.bind_def, M.access, h1]
        trivial
      | err er q => exact absurd hr (hw er q)
      | ub => trivial
      | timeout => exact absurd hr ht
    · rw [if_neg hb, M.bind_def, M.access, h2]
      trivial

theorem bfOpC_prog {cfg : OptCfg} (hc : cfg.errors = false) (op : Nat) : Prog 0 (bfOpC S cfg e op) := by
  unfold bfOpC
  refine .ite ?_ (.ite (oemit_prog _) (.ite ?_ ?_))
  · refine .bind0 (readBitsC_prog0 e hc _) fun rep => .bind0 (checkErrorC_prog hc) fun _ => .bind0 .get fun p => ?_
    rw [if_neg (by rw [hc]; simp), if_neg (by rw [hc]; simp)]
    exact odoRepeat_prog _
  · exact .bind0 (readBitsC_prog0 e hc _) fun v =>
      .bind0 (checkErrorC_prog hc) fun _ => .bind0 (bfGetIndexC_prog hc _ _ _) fun o =>
      .bind0 (checkErrorC_prog hc) fun _ => .bind0 (.access _) fun bs => oemit_prog bs
  · unfold bfDoOpC
    rw [if_neg (by rw [hc]; simp)]
    refine .bind0 (readBitsC_prog0 e hc _) fun params =>
      .bind0 (checkErrorC_prog hc) fun _ => .bind0 (bfFieldsC_prog S e hc params _ _) fun l => .bind0 .get fun p => ?_
    rw [if_neg (by rw [hc]; simp)]
    exact oemit_prog _

theorem bfIterC_prog {cfg : OptCfg} (hc : cfg.errors = false) : Prog 5 (bfIterC S cfg e) := by
  unfold bfIterC
  refine ((readBitsC_prog e hc (n := 5) (by omega)).bind (m := 0) fun op =>
    .bind0 (checkErrorC_prog hc) fun _ => .bind0 .get fun p => ?_).mono (by omega)
  rw [if_neg (by rw [hc]; simp)]
  exact .ite (.pure _) (.bind0 (bfOpC_prog S e hc _) fun _ => .bind0 (checkErrorC_prog hc) fun _ => .pure _)

theorem bfBodyC_prog {cfg : OptCfg} (hc : cfg.errors = false) (aout fuel : Nat) (p : ODecomp) (hf : left p < 5 * fuel) :
    match bfBodyC S cfg e aout fuel p with
    | .ok _ p' => p'.buf.length = p.buf.length
    | .err er p' => er = .EINVAL ∧ p'.buf.length = p.buf.length
    | .ub => True
    | .timeout => False := by
  unfold bfBodyC
  have h1 := doWhile_prog (bfIterC_prog S e hc) fuel p hf
  have h2 : Prog 0 (if cfg.crc = true then do
      let crc ← readBitsC cfg e 32
      checkErrorC cfg
      let p ← M.get
      let want ← M.access fun p => crc32be e aout 0#32 p.buf p.out
      if crc ≠ want.setWidth 64 then M.fail .EINVAL
      else Pure.pure p.out
    else do
      let p ← M.get
      Pure.pure p.out) := by
    refine .ite ?_ (.bind0 .get fun _ => .pure _)
    exact .bind0 ((readBitsC_prog e hc (by omega)).mono (Nat.zero_le _)) fun _ => .bind0 (checkErrorC_prog hc) fun _ =>
      .bind0 .get fun p => .bind0 (.access _) fun w => .ite .einval (.pure _)
  rw [M.bind_def]
  cases hr : M.doWhile (bfIterC S cfg e) fuel p with
  | ok u p1 =>
    rw [hr] at h1
    dsimp only at h1 ⊢
    have h3 := h2 p1
    split <;> rename_i hz <;> rw [hz] at h3
    · exact h3.1.trans h1
    · exact ⟨h3.1, h3.2.trans h1⟩
    · trivial
    · exact h3
  | err er p1 => rw [hr] at h1; exact h1
  | ub => trivial
  | timeout => rw [hr] at h1; exact h1

end Config

end Lib842
