import Verif.Model.OptComp
import Verif.Proofs.RefComp
/-!
# A pure reference for the optimized compressor

The op sequence chosen by `optsw842_compress`, as a function of the input alone.
-/

namespace Lib842
open Spec

/-- The part of the state that the choice of ops depends on. -/
structure OTab where
  hashes : Nat → BitVec 64
  ht16 : Nat → BitVec 16
  ht32 : Nat → BitVec 16
  ht64 : Nat → BitVec 16

def OTab.init : OTab := ⟨fun _ => 0#64, fun _ => -1#16, fun _ => -1#16, fun _ => -1#16⟩

/-- The `n`-byte word at `o`, extended to 64 bits. -/
def dataAt (x : List Byte) (n o : Nat) : BitVec 64 :=
  if n = 2 then (key 16 x o).setWidth 64 else if n = 4 then (key 32 x o).setWidth 64 else key 64 x o

/-- Size and offset of the `k`-th value of a block. -/
def slotSize (k : Nat) : Nat := if k < 4 then 2 else if k < 6 then 4 else 8
def slotOff (k : Nat) : Nat := if k < 4 then 2 * k else if k < 6 then 4 * (k - 4) else 0
/-- The number of the value of size `n` at offset `o` (7: there is none). -/
def slotOf (n o : Nat) : Nat := if n = 2 then o / 2 else if n = 4 then (if o % 4 = 0 then 4 + o / 4 else 7) else 6

def dictBits (n : Nat) : Nat := if n = 4 then 11 else 10

def OTab.ht (T : OTab) (n : Nat) : Nat → BitVec 16 := if n = 2 then T.ht16 else if n = 4 then T.ht32 else T.ht64

/-- A verified dictionary hit. -/
noncomputable def hit (ht : Nat → BitVec 16) (n : Nat) (x : List Byte) (pos o : Nat) : Option Nat :=
  let i := ht (hashOne (dictBits n) (dataAt x n o)).toNat
  if 0 ≤ i.toInt ∧ slots (8 * n) n x pos i.toNat = some (key (8 * n) x o) then some i.toNat else none

noncomputable def OTab.find (T : OTab) (x : List Byte) (pos n o : Nat) : Option Nat := hit (T.ht n) n x pos o

def OTab.rehash (T : OTab) (x : List Byte) (pos : Nat) : OTab :=
  { T with hashes := fun k =>
      if k < 7 then hashOne (dictBits (slotSize k)) (dataAt x (slotSize k) (pos + slotOff k)) else T.hashes k }

def OTab.next (T : OTab) (pos : Nat) : OTab :=
  let i16 := pos / 2 % 256
  let i32 := pos / 4 % 512
  let h (k : Nat) := (T.hashes k).toNat
  let w (i : Nat) := BitVec.ofNat 16 i
  { T with
    ht16 := upd (upd (upd (upd T.ht16 (h 0) (w i16)) (h 1) (w (i16 + 1))) (h 2) (w (i16 + 2))) (h 3) (w (i16 + 3))
    ht32 := upd (upd T.ht32 (h 4) (w i32)) (h 5) (w (i32 + 1))
    ht64 := upd T.ht64 (h 6) (w (pos / 8 % 256)) }

/-- Which of the seven values are in the dictionaries. -/
noncomputable def OTab.valid (T : OTab) (x : List Byte) (pos k : Nat) : Bool :=
  (T.find x pos (slotSize k) (pos + slotOff k)).isSome

/-- `templateKeys` for given validity. -/
def keysOf (valid : Nat → Bool) (k : Nat) : BitVec 16 :=
  if valid k then keyConst.getD k 0#16 else 0#16

/-- The template chosen for given validity. -/
def codeOf (valid : Nat → Bool) : Nat := (getTemplate (keysOf valid)).getD 0

noncomputable def OTab.arg (T : OTab) (x : List Byte) (pos o : Nat) : Action → Arg
  | .D n => .data (slice x o n)
  | .I n => .index n ((T.find x pos n o).getD 0)

noncomputable def OTab.args (T : OTab) (x : List Byte) (pos : Nat) : List Action → Nat → List Arg
  | [], _ => []
  | a :: as, o => T.arg x pos o a :: T.args x pos as (o + actionSize a)

noncomputable def OTab.blockOp (T : OTab) (x : List Byte) (pos : Nat) : Op :=
  let code := codeOf (T.valid x pos)
  .template code (T.args x pos (templates.getD code []) pos)

noncomputable def orefStep (T : OTab) (x : List Byte) (pos : Nat) (last : Option (List Byte)) (rc : Nat) :
    List Op × Nat × OTab :=
  let next := slice x pos 8
  if some next = last then
    if rc + 1 ≤ 0x3f then ([], rc + 1, T) else ([.rep rc], 0, T)
  else if next = List.replicate 8 0#8 then (repOps rc ++ [.zeros], 0, T)
  else (repOps rc ++ [T.blockOp x pos], 0, T.rehash x pos)

noncomputable def orefLoop (x : List Byte) : (k : Nat) → OTab → (pos : Nat) → Option (List Byte) →
    (rc : Nat) → List Op
  | 0, _, _, _, rc => repOps rc
  | k + 1, T, pos, last, rc =>
    let r := orefStep T x pos last rc
    r.1 ++ orefLoop x k (r.2.2.next pos) (pos + 8) (some (slice x pos 8)) r.2.1

/-- The ops `optsw842_compress` emits for `x`. -/
noncomputable def orefOps (x : List Byte) : List Op := orefLoop x (x.length / 8) .init 0 none 0

/-! ## Dictionary hits are correct -/

theorem hit_sound {ht : Nat → BitVec 16} {n : Nat} (hn : SizeOk n) {x : List Byte} {pos o i : Nat}
    (h8 : pos % 8 = 0) (hpos : pos ≤ x.length) (ho : o + n ≤ x.length) (h : hit ht n x pos o = some i) :
    i < 2 ^ indexBits n ∧ ∃ r, RingRef pos n i r ∧ slice x r n = slice x o n := by
  unfold hit at h
  simp only at h
  split at h
  · rename_i hc
    obtain rfl := Option.some.inj h
    obtain ⟨hi, r, href, hk⟩ := (slots_some hn h8).1 hc.2
    refine ⟨hi, r, href, ?_⟩
    have hr := RingRef_lt href
    have hw : 8 * n / 8 = n := by omega
    have := key_inj (w := 8 * n) (by omega) (a := r) (b := o) (by omega) (by omega) hk
    rwa [hw] at this
  · cases h

/-! ## The choice of template -/

/-- The values that must be in the dictionaries for the actions from offset `o` on. -/
def needs : List Action → Nat → List Nat
  | [], _ => []
  | .D n :: as, o => needs as (o + n)
  | .I n :: as, o => slotOf n o :: needs as (o + n)

def bools7 (b0 b1 b2 b3 b4 b5 b6 : Bool) : Nat → Bool := fun k =>
  [b0, b1, b2, b3, b4, b5, b6].getD k false

/-- Offsets of the index actions of a template. -/
def offsOk : List Action → Nat → Bool
  | [], _ => true
  | .D n :: as, o => offsOk as (o + n)
  | .I n :: as, o => (slotOf n o < 7 && slotSize (slotOf n o) == n && slotOff (slotOf n o) == o) &&
      offsOk as (o + n)

theorem codeOf_table : ∀ b0 b1 b2 b3 b4 b5 b6 : Bool,
    let v := bools7 b0 b1 b2 b3 b4 b5 b6
    let code := codeOf v
    (getTemplate (keysOf v)).isSome = true ∧ code < 26 ∧
    (needs (templates.getD code []) 0).all v = true ∧
    ((List.range 26).all fun c => !(needs (templates.getD c []) 0).all v || codeBits code ≤ codeBits c) = true := by
  decide +kernel

theorem offsOk_templates : ∀ code, code < 26 → offsOk (templates.getD code []) 0 = true := by
  decide +kernel

theorem keysOf_congr {v v' : Nat → Bool} (h : ∀ k, k < 7 → v k = v' k) :
    getTemplate (keysOf v) = getTemplate (keysOf v') := by
  unfold getTemplate keysOf
  simp only [h 0 (by omega), h 1 (by omega), h 2 (by omega), h 3 (by omega), h 4 (by omega),
    h 5 (by omega), h 6 (by omega)]

theorem bools7_eq (v : Nat → Bool) :
    ∀ k, k < 7 → v k = bools7 (v 0) (v 1) (v 2) (v 3) (v 4) (v 5) (v 6) k := by
  intro k hk
  interval_cases k <;> rfl

theorem needs_lt {acts : List Action} {o : Nat} (h : offsOk acts o = true) : ∀ k ∈ needs acts o, k < 7 := by
  induction acts generalizing o with
  | nil => simp [needs]
  | cons a as ih =>
    cases a with
    | D n => rw [offsOk] at h; rw [needs]; exact ih h
    | I n =>
      rw [offsOk] at h
      simp only [Bool.and_eq_true, decide_eq_true_eq, beq_iff_eq] at h
      rw [needs]
      intro k hk
      rcases List.mem_cons.1 hk with rfl | hk
      · exact h.1.1.1
      · exact ih h.2 k hk

theorem all_congr' {v v' : Nat → Bool} {l : List Nat} (hl : ∀ k ∈ l, k < 7) (h : ∀ k, k < 7 → v k = v' k) :
    l.all v = l.all v' := by
  induction l with
  | nil => rfl
  | cons a l ih =>
    rw [List.all_cons, List.all_cons, h a (hl a (List.mem_cons_self ..)),
      ih fun k hk => hl k (List.mem_cons_of_mem _ hk)]

/-- The chosen template only uses values that were found, and no usable template is shorter. -/
theorem codeOf_ok (v : Nat → Bool) :
    getTemplate (keysOf v) = some (codeOf v) ∧ codeOf v < 26 ∧
    (needs (templates.getD (codeOf v) []) 0).all v = true ∧
    ∀ c, c < 26 → (needs (templates.getD c []) 0).all v = true → codeBits (codeOf v) ≤ codeBits c := by
  have hb := bools7_eq v
  have ht := codeOf_table (v 0) (v 1) (v 2) (v 3) (v 4) (v 5) (v 6)
  simp only at ht
  have hcode : codeOf v = codeOf (bools7 (v 0) (v 1) (v 2) (v 3) (v 4) (v 5) (v 6)) := by
    unfold codeOf; rw [keysOf_congr hb]
  have hall : ∀ c, c < 26 → (needs (templates.getD c []) 0).all v =
      (needs (templates.getD c []) 0).all (bools7 (v 0) (v 1) (v 2) (v 3) (v 4) (v 5) (v 6)) :=
    fun c hc => all_congr' (needs_lt (offsOk_templates c hc)) hb
  obtain ⟨h1, h2, h3, h4⟩ := ht
  rw [← hcode] at h2 h3 h4
  refine ⟨?_, h2, (hall _ h2).trans h3, fun c hc hv => ?_⟩
  · rw [← keysOf_congr hb] at h1
    unfold codeOf
    obtain ⟨a, ha⟩ := Option.isSome_iff_exists.1 h1
    rw [ha]; rfl
  · rw [List.all_eq_true] at h4
    have := h4 c (List.mem_range.2 hc)
    rw [← hall c hc, hv] at this
    simpa using this

/-! ## The arguments reproduce the input -/

theorem OTab.args_ok {T : OTab} {x : List Byte} {pos : Nat} (h8 : pos % 8 = 0)
    (hpos : pos + 8 ≤ x.length) {acts : List Action} (hok : ∀ a ∈ acts, ActionOk a) {b : Nat}
    (hb : b + sumSizes acts = 8) (hoff : offsOk acts b = true)
    (hneed : ∀ k ∈ needs acts b, T.valid x pos k = true) :
    (T.args x pos acts (pos + b)).map Arg.action = acts ∧ (∀ a ∈ T.args x pos acts (pos + b), a.Valid) ∧
      ArgsRun (x.take (pos + b)) (T.args x pos acts (pos + b)) (x.take (pos + 8)) := by
  induction acts generalizing b with
  | nil =>
    simp only [sumSizes, List.map_nil, List.sum_nil] at hb
    have : b = 8 := by omega
    subst this
    exact ⟨rfl, by simp [OTab.args], .nil⟩
  | cons a acts ih =>
    have hok' : ∀ a ∈ acts, ActionOk a := fun a ha => hok a (List.mem_cons_of_mem _ ha)
    have hoka := hok a (List.mem_cons_self ..)
    have hsz : SizeOk (actionSize a) := by cases a <;> exact hoka
    have hpos' : 1 ≤ actionSize a := by rcases hsz with h | h | h <;> omega
    simp only [sumSizes, List.map_cons, List.sum_cons] at hb
    have hoff' : offsOk acts (b + actionSize a) = true := by
      cases a with
      | D n => rw [offsOk] at hoff; exact hoff
      | I n => rw [offsOk, Bool.and_eq_true] at hoff; exact hoff.2
    have hneed' : ∀ k ∈ needs acts (b + actionSize a), T.valid x pos k = true := by
      intro k hk
      apply hneed
      cases a with
      | D n => rw [needs]; exact hk
      | I n => rw [needs]; exact List.mem_cons_of_mem _ hk
    obtain ⟨hm, hv, hrun⟩ := ih hok' (b := b + actionSize a) (by unfold sumSizes; omega) hoff' hneed'
    rw [OTab.args, Nat.add_assoc]
    have htake : x.take (pos + (b + actionSize a)) = x.take (pos + b) ++ slice x (pos + b) (actionSize a) := by
      rw [← Nat.add_assoc, take_append_slice]
    have hfit : pos + b + actionSize a ≤ x.length := by omega
    cases a with
    | D n =>
      simp only [actionSize] at htake hfit hm hv hrun
      simp only [OTab.arg, actionSize]
      refine ⟨?_, ?_, ?_⟩
      · rw [List.map_cons, hm, Arg.action, length_slice hfit]
      · intro a ha
        rcases List.mem_cons.1 ha with rfl | h
        · trivial
        · exact hv a h
      · refine .cons .data ?_
        rw [← htake]; exact hrun
    | I n =>
      simp only [actionSize] at htake hfit hm hv hrun hpos' hb
      simp only [OTab.arg, actionSize]
      rw [offsOk] at hoff
      simp only [Bool.and_eq_true, decide_eq_true_eq, beq_iff_eq] at hoff
      have hvk := hneed (slotOf n b) (by rw [needs]; exact List.mem_cons_self ..)
      unfold OTab.valid at hvk
      rw [hoff.1.1.2, hoff.1.2] at hvk
      obtain ⟨i, hf⟩ := Option.isSome_iff_exists.1 hvk
      obtain ⟨hi, r, href, hs⟩ := hit_sound hoka h8 (by omega) hfit hf
      rw [hf, Option.getD_some]
      refine ⟨?_, ?_, ?_⟩
      · rw [List.map_cons, hm, Arg.action]
      · intro a ha
        rcases List.mem_cons.1 ha with rfl | h
        · exact hi
        · exact hv a h
      · have hlen : (x.take (pos + b)).length = pos + b := by simp; omega
        have hrl := RingRef_lt href
        refine .cons (.index (o := r) ?_) ?_
        · rw [hlen, RingRef_within h8 (by omega)]
          exact href
        · have : ((x.take (pos + b)).drop r).take n = slice x (pos + b) n := by
            have := slice_take (x := x) (r := r) (n := n) (m := pos + b) (by omega)
            unfold slice at this hs ⊢
            rw [this, hs]
          rw [this, ← htake]
          exact hrun

theorem getD_templates {code : Nat} (h : code < 26) : templates[code]? = some (templates.getD code []) := by
  rw [List.getD_eq_getElem?_getD]
  have : code < templates.length := h
  rw [List.getElem?_eq_getElem this]; rfl

theorem OTab.blockOp_ok (T : OTab) {x : List Byte} {pos : Nat} (h8 : pos % 8 = 0)
    (hpos : pos + 8 ≤ x.length) :
    (T.blockOp x pos).Valid ∧ (T.blockOp x pos).isShort = false ∧
    OpStep (x.take pos) (T.blockOp x pos) (x.take (pos + 8)) ∧ (T.blockOp x pos).bits.length ≤ 69 := by
  obtain ⟨-, hlt, hneed, -⟩ := codeOf_ok (T.valid x pos)
  have ht := getD_templates hlt
  obtain ⟨-, hok, hsum, hbits⟩ := templates_ok _ _ ht
  obtain ⟨hm, hv, hrun⟩ := OTab.args_ok (T := T) h8 hpos hok (b := 0) (by omega) (offsOk_templates _ hlt)
    (by rw [List.all_eq_true] at hneed; exact hneed)
  refine ⟨⟨?_, hv⟩, rfl, .template hrun, ?_⟩
  · rw [ht]; exact congrArg some hm.symm
  · have := template_bits_length (codeOf (T.valid x pos)) (T.args x pos (templates.getD (codeOf (T.valid x pos)) []) pos)
    rw [show T.args x pos (templates.getD (codeOf (T.valid x pos)) []) pos =
      T.args x pos (templates.getD (codeOf (T.valid x pos)) []) (pos + 0) from rfl, hm] at this
    show (Op.bits (.template _ _)).length ≤ 69
    rw [show T.args x pos (templates.getD (codeOf (T.valid x pos)) []) pos =
      T.args x pos (templates.getD (codeOf (T.valid x pos)) []) (pos + 0) from rfl, this]
    exact hbits

/-! ## The whole op sequence -/

/-- Properties of the ops. -/
def OBlockGood (out : List Byte) (op : Op) : Prop :=
  op.Valid ∧ op.isShort = false ∧ out.length % 8 = 0

theorem RunP.mono {P Q : List Byte → Op → Prop} (hPQ : ∀ o op, P o op → Q o op) {a ops b}
    (h : RunP P a ops b) : RunP Q a ops b := by
  induction h with
  | nil => exact .nil
  | cons hp hs _ ih => exact .cons (hPQ _ _ hp) hs ih

theorem LInv.oflush {x pos last rc out} (h : LInv x pos last rc out) (h8 : pos % 8 = 0)
    (hpos : pos ≤ x.length) : RunP OBlockGood out (repOps rc) (x.take pos) :=
  (h.flush h8 hpos).mono fun _ _ h => ⟨h.1, h.2.1, h.2.2.1⟩

theorem orefLoop_run (x : List Byte) (k : Nat) {T : OTab} {pos : Nat} {last : Option (List Byte)} {rc : Nat}
    {out : List Byte} (h8 : pos % 8 = 0) (hpos : pos + 8 * k ≤ x.length)
    (hi : LInv x pos last rc out) :
    RunP OBlockGood out (orefLoop x k T pos last rc) (x.take (pos + 8 * k)) := by
  induction k generalizing T pos last rc out with
  | zero => exact hi.oflush h8 (by omega)
  | succ k ih =>
    rw [orefLoop]
    rw [show pos + 8 * (k + 1) = (pos + 8) + 8 * k by omega]
    have hnext : x.take (pos + 8) = x.take pos ++ slice x pos 8 := take_append_slice x pos 8
    have hsl : (slice x pos 8).length = 8 := length_slice (by omega)
    have hlp : (x.take pos).length % 8 = 0 := by simp; omega
    have hfresh : LInv x (pos + 8) (some (slice x pos 8)) 0 (x.take (pos + 8)) := by
      refine ⟨by simp, by simp, ?_, by omega⟩
      intro blk hb
      obtain rfl := Option.some.inj hb
      refine ⟨by simp; omega, ?_⟩
      rw [hnext, List.length_append, hsl, Nat.add_sub_cancel]; simp
    unfold orefStep
    simp only
    by_cases heq : some (slice x pos 8) = last
    · rw [if_pos heq]
      obtain ⟨hl8, hblk⟩ := hi.last _ heq.symm
      by_cases hrc : rc + 1 ≤ 0x3f
      · rw [if_pos hrc]
        simp only [List.nil_append]
        refine ih (by omega) (by omega) ⟨?_, fun _ => hl8, ?_, hrc⟩
        · rw [hnext, ← hi.pend, List.replicate_succ', List.flatten_append, List.append_assoc, hblk]
          simp
        · intro blk hb
          obtain rfl := Option.some.inj hb
          exact ⟨hl8, hblk⟩
      · rw [if_neg hrc]
        have hrc63 : rc = 63 := by have := hi.rc; omega
        have hstep := OpStep.rep (out := out) (n := rc) hl8
        have hres : out ++ (List.replicate (rc + 1) (out.drop (out.length - 8))).flatten = x.take (pos + 8) := by
          rw [hnext, ← hi.pend, List.replicate_succ', List.flatten_append, List.append_assoc, hblk]
          simp
        rw [hres] at hstep
        have hlen := congrArg List.length hi.pend
        rw [List.length_append, flatten_len8 out hl8, List.length_take, Nat.min_eq_left (by omega)] at hlen
        refine .append (.single ⟨?_, rfl, by omega⟩ hstep) (ih (by omega) (by omega) hfresh)
        show rc < 64; omega
    · rw [if_neg heq]
      have hfl := hi.oflush h8 (by omega)
      by_cases hz : slice x pos 8 = List.replicate 8 0#8
      · rw [if_pos hz]
        refine .append (.append hfl (.single ⟨trivial, rfl, hlp⟩ ?_)) (ih (by omega) (by omega) hfresh)
        rw [hnext, hz]; exact .zeros
      · rw [if_neg hz]
        obtain ⟨hv, hns, hst, -⟩ := T.blockOp_ok (x := x) h8 (by omega)
        exact .append (.append hfl (.single ⟨hv, hns, hlp⟩ hst)) (ih (by omega) (by omega) hfresh)

theorem orefOps_run {x : List Byte} (h : x.length % 8 = 0) : RunP OBlockGood [] (orefOps x) x := by
  have := orefLoop_run x (x.length / 8) (T := .init) (pos := 0) (last := none) (rc := 0) (out := [])
    rfl (by omega) ⟨by simp, by simp, by simp, by omega⟩
  rwa [Nat.zero_add, List.take_of_length_le (by omega)] at this

theorem orefOps_expands {x : List Byte} (h : x.length % 8 = 0) :
    Expands (orefOps x) x ∧ ∀ op ∈ orefOps x, op.isShort = false := by
  have hr := orefOps_run h
  refine ⟨⟨fun op hop => ?_, hr.run⟩, fun op hop => ?_⟩
  · obtain ⟨o, ho⟩ := hr.forall op hop; exact ho.1
  · obtain ⟨o, ho⟩ := hr.forall op hop; exact ho.2.1

theorem orefLoop_bits (x : List Byte) (k : Nat) {T : OTab} {pos : Nat} {last : Option (List Byte)} {rc : Nat}
    (h8 : pos % 8 = 0) (hpos : pos + 8 * k ≤ x.length) :
    ((orefLoop x k T pos last rc).flatMap Op.bits).length ≤ 69 * (k + rc) := by
  have hrep : ∀ rc, ((repOps rc).flatMap Op.bits).length ≤ 11 * rc := by
    intro rc
    unfold repOps
    split
    · simp
    · simp [Op.bits]; omega
  induction k generalizing T pos last rc with
  | zero => have := hrep rc; rw [orefLoop]; omega
  | succ k ih =>
    rw [orefLoop]
    simp only [List.flatMap_append, List.length_append]
    have ih' := fun (T : OTab) (last : Option (List Byte)) rc =>
      ih (T := T) (pos := pos + 8) (last := last) (rc := rc) (by omega) (by omega)
    have h1 := hrep rc
    unfold orefStep
    simp only
    split
    · split
      · have := ih' (T.next pos) (some (slice x pos 8)) (rc + 1)
        simp only [List.flatMap_nil, List.length_nil]; omega
      · have := ih' (T.next pos) (some (slice x pos 8)) 0
        simp only [List.flatMap_cons, List.flatMap_nil, List.append_nil, Op.bits, List.length_append,
          length_bitsOf]
        omega
    · split
      · have := ih' (T.next pos) (some (slice x pos 8)) 0
        simp only [List.flatMap_append, List.length_append, List.flatMap_cons, List.flatMap_nil,
          List.append_nil]
        have h2 : (Op.bits .zeros).length ≤ 69 := by simp [Op.bits]
        omega
      · have := ih' ((T.rehash x pos).next pos) (some (slice x pos 8)) 0
        simp only [List.flatMap_append, List.length_append, List.flatMap_cons, List.flatMap_nil,
          List.append_nil]
        have h2 := (T.blockOp_ok (x := x) h8 (by omega)).2.2.2
        omega

end Lib842
