import Verif.Proofs.SwCall
import Verif.Proofs.OptCall
import Verif.Proofs.OptDecomp
/-!
# The ops chosen for a prefix

What the compressors choose for a group depends only on what comes before and on the group itself.
-/

namespace Lib842
open Spec

/-- `p` and `z` have the same first `L` bytes. -/
def Agree (p z : List Byte) (L : Nat) : Prop := ∀ o n, o + n ≤ L → slice p o n = slice z o n

theorem agree_append (p x : List Byte) : Agree p (p ++ x) p.length := by
  intro o n h
  unfold slice
  rw [List.drop_append_of_le_length (by omega), List.take_append_of_le_length (by simp; omega)]

namespace Agree
variable {p z : List Byte} {L : Nat}

theorem key (h : Agree p z L) (w : Nat) {o : Nat} (ho : o + w / 8 ≤ L) : key w p o = key w z o := by
  unfold Lib842.key
  rw [h _ _ ho]

theorem next (h : Agree p z L) (T : Tab) {pos : Nat} (hp : pos + 8 ≤ L) : T.next p pos = T.next z pos := by
  unfold Tab.next
  rw [h.key 64 (o := pos) (by omega), h.key 32 (o := pos) (by omega), h.key 32 (o := pos + 4) (by omega), h.key 16 (o := pos) (by omega),
    h.key 16 (o := pos + 2) (by omega), h.key 16 (o := pos + 4) (by omega), h.key 16 (o := pos + 6) (by omega)]

theorem find (h : Agree p z L) (T : Tab) {n o : Nat} (hn : SizeOk n) (ho : o + n ≤ L) : T.find p n o = T.find z n o := by
  unfold Tab.find
  rcases hn with rfl | rfl | rfl
  · rw [h.key 16 (by omega)]; simp
  · rw [h.key 32 (by omega)]; simp
  · rw [h.key 64 (by omega)]; simp

theorem args (h : Agree p z L) (T : Tab) {acts : List Action} (hs : ∀ a ∈ acts, SizeOk (actionSize a)) {o : Nat}
    (ho : o + actionsSize acts ≤ L) : T.args p acts o = T.args z acts o := by
  induction acts generalizing o with
  | nil => rfl
  | cons a as ih =>
    have hsz : actionsSize (a :: as) = actionSize a + actionsSize as := by simp [actionsSize]
    have h1 : T.arg p o a = T.arg z o a := by
      have h2 := hs a (by simp)
      cases a with
      | D n =>
        show some (Arg.data (slice p o n)) = some (Arg.data (slice z o n))
        rw [h o n (by simp only [actionSize] at hsz; omega)]
      | I n =>
        show (T.find p n o).map (Arg.index n) = (T.find z n o).map (Arg.index n)
        rw [h.find T (n := n) h2 (by simp only [actionSize] at hsz; omega)]
    unfold Tab.args
    rw [h1, ih (fun b hb => hs b (by simp [hb])) (by omega)]

theorem _root_.Lib842.templates_fit : ∀ acts ∈ templates, (∀ a ∈ acts, SizeOk (actionSize a)) ∧ actionsSize acts = 8 := by
  unfold SizeOk
  decide

theorem tryCode (h : Agree p z L) (T : Tab) {pos : Nat} (hp : pos + 8 ≤ L) (code : Nat) : T.tryCode p pos code = T.tryCode z pos code := by
  unfold Tab.tryCode
  cases hc : templates[code]? with
  | none => rfl
  | some acts =>
    obtain ⟨h1, h2⟩ := templates_fit acts (List.mem_of_getElem? hc)
    simp only
    rw [h.args T h1 (by omega)]

theorem step (h : Agree p z L) (T : Tab) {pos : Nat} (hp : pos + 8 ≤ L) (last : Option (List Byte)) (rc : Nat) :
    refStep T p pos last rc = refStep T z pos last rc := by
  unfold refStep Tab.blockOp
  rw [h pos 8 hp, funext (h.tryCode T hp)]

/-! ## The optimized compressor -/

theorem dataAt (h : Agree p z L) {n o : Nat} (hn : SizeOk n) (ho : o + n ≤ L) : dataAt p n o = dataAt z n o := by
  unfold Lib842.dataAt
  rcases hn with rfl | rfl | rfl
  · rw [h.key 16 (by omega)]; simp
  · rw [h.key 32 (by omega)]; simp
  · rw [h.key 64 (by omega)]; simp

theorem slots (h : Agree p z L) {n pos : Nat} (hn : SizeOk n) (h8 : pos % 8 = 0) (hp : pos ≤ L) (j : Nat) :
    slots (8 * n) n p pos j = slots (8 * n) n z pos j := by
  apply Option.ext
  intro v
  rw [slots_some hn h8, slots_some hn h8]
  have : ∀ o, RingRef pos n j o → Lib842.key (8 * n) p o = Lib842.key (8 * n) z o := by
    intro o ho
    apply h.key
    have h3 := ho.2
    unfold SizeOk at hn
    omega
  constructor
  · rintro ⟨h1, o, h2, h3⟩; exact ⟨h1, o, h2, by rw [← this o h2]; exact h3⟩
  · rintro ⟨h1, o, h2, h3⟩; exact ⟨h1, o, h2, by rw [this o h2]; exact h3⟩

theorem hit (h : Agree p z L) (ht : Nat → BitVec 16) {n pos o : Nat} (hn : SizeOk n) (h8 : pos % 8 = 0) (hp : pos ≤ L) (ho : o + n ≤ L) :
    hit ht n p pos o = hit ht n z pos o := by
  unfold Lib842.hit
  simp only
  rw [h.dataAt hn ho, h.slots hn h8 hp, h.key (8 * n) (by omega)]

theorem oargs (h : Agree p z L) (T : OTab) {acts : List Action} (hs : ∀ a ∈ acts, SizeOk (actionSize a)) {pos o : Nat} (h8 : pos % 8 = 0)
    (hp : pos ≤ L) (ho : o + actionsSize acts ≤ L) : T.args p pos acts o = T.args z pos acts o := by
  induction acts generalizing o with
  | nil => rfl
  | cons a as ih =>
    have hsz : actionsSize (a :: as) = actionSize a + actionsSize as := by simp [actionsSize]
    have h1 : T.arg p pos o a = T.arg z pos o a := by
      have h2 := hs a (by simp)
      cases a with
      | D n =>
        show Arg.data (slice p o n) = Arg.data (slice z o n)
        rw [h o n (by simp only [actionSize] at hsz; omega)]
      | I n =>
        show Arg.index n ((Lib842.hit (T.ht n) n p pos o).getD 0) = Arg.index n ((Lib842.hit (T.ht n) n z pos o).getD 0)
        rw [h.hit (T.ht n) (n := n) h2 h8 hp (by simp only [actionSize] at hsz; omega)]
    unfold OTab.args
    rw [h1, ih (fun b hb => hs b (by simp [hb])) (by omega)]

theorem _root_.Lib842.slotSize_okAll (k : Nat) : SizeOk (slotSize k) := by
  unfold slotSize SizeOk
  split
  · simp
  · split <;> simp

theorem valid (h : Agree p z L) (T : OTab) {pos : Nat} (h8 : pos % 8 = 0) (hp : pos + 8 ≤ L) (k : Nat) :
    T.valid p pos k = T.valid z pos k := by
  unfold OTab.valid OTab.find
  rw [h.hit _ (slotSize_okAll k) h8 (by omega)]
  unfold slotSize slotOff
  split
  · omega
  · split <;> omega

theorem rehash (h : Agree p z L) (T : OTab) {pos : Nat} (hp : pos + 8 ≤ L) : T.rehash p pos = T.rehash z pos := by
  unfold OTab.rehash
  congr 1
  funext k
  split
  · rw [h.dataAt (slotSize_okAll k)]
    unfold slotSize slotOff
    split
    · omega
    · split <;> omega
  · rfl

theorem ostep (h : Agree p z L) (T : OTab) {pos : Nat} (h8 : pos % 8 = 0) (hp : pos + 8 ≤ L) (last : Option (List Byte)) (rc : Nat) :
    orefStep T p pos last rc = orefStep T z pos last rc := by
  have hb : T.blockOp p pos = T.blockOp z pos := by
    unfold OTab.blockOp
    rw [funext (h.valid T h8 hp)]
    simp only
    congr 1
    cases hc : templates[codeOf (T.valid z pos)]? with
    | none =>
      rw [List.getD_eq_getElem?_getD, hc]
      rfl
    | some acts =>
      obtain ⟨h1, h2⟩ := templates_fit acts (List.mem_of_getElem? hc)
      rw [List.getD_eq_getElem?_getD, hc]
      exact h.oargs T h1 h8 (by omega) (by show pos + actionsSize acts ≤ L; omega)
  unfold orefStep
  rw [h pos 8 hp, hb, h.rehash T hp]

end Agree

/-! ## Splitting the loops -/

theorem refLoop_prefix {p z : List Byte} {L : Nat} (h : Agree p z L) (k : Nat) {T : Tab} {pos : Nat} {last : Option (List Byte)} {rc : Nat}
    (hp : pos + 8 * k ≤ L) :
    ∃ A T' last' rc', refLoop p k T pos last rc = A ++ repOps rc' ∧
      ∀ m, refLoop z (k + m) T pos last rc = A ++ refLoop z m T' (pos + 8 * k) last' rc' := by
  induction k generalizing T pos last rc with
  | zero => exact ⟨[], T, last, rc, rfl, fun m => by simp⟩
  | succ k ih =>
    obtain ⟨A, T', last', rc', h1, h2⟩ := @ih (T.next p pos) (pos + 8) (some (slice p pos 8)) (refStep T p pos last rc).2 (by omega)
    refine ⟨(refStep T p pos last rc).1 ++ A, T', last', rc', ?_, fun m => ?_⟩
    · rw [refLoop]
      rw [h1, List.append_assoc]
    · rw [show k + 1 + m = (k + m) + 1 by omega, refLoop]
      rw [← h.step T (by omega), ← h.next T (by omega), ← h pos 8 (by omega), h2 m, List.append_assoc,
        show pos + 8 * (k + 1) = pos + 8 + 8 * k by omega]

theorem orefLoop_prefix {p z : List Byte} {L : Nat} (h : Agree p z L) (k : Nat) {T : OTab} {pos : Nat} {last : Option (List Byte)} {rc : Nat}
    (h8 : pos % 8 = 0) (hp : pos + 8 * k ≤ L) :
    ∃ A T' last' rc', orefLoop p k T pos last rc = A ++ repOps rc' ∧
      ∀ m, orefLoop z (k + m) T pos last rc = A ++ orefLoop z m T' (pos + 8 * k) last' rc' := by
  induction k generalizing T pos last rc with
  | zero => exact ⟨[], T, last, rc, rfl, fun m => by simp⟩
  | succ k ih =>
    obtain ⟨A, T', last', rc', h1, h2⟩ := @ih ((orefStep T p pos last rc).2.2.next pos) (pos + 8) (some (slice p pos 8))
      (orefStep T p pos last rc).2.1 (by omega) (by omega)
    refine ⟨(orefStep T p pos last rc).1 ++ A, T', last', rc', ?_, fun m => ?_⟩
    · rw [orefLoop]
      rw [h1, List.append_assoc]
    · rw [show k + 1 + m = (k + m) + 1 by omega, orefLoop]
      rw [← h.ostep T h8 (by omega), ← h pos 8 (by omega), h2 m, List.append_assoc,
        show pos + 8 * (k + 1) = pos + 8 + 8 * k by omega]

theorem rep_bits (rc : Nat) : ((repOps rc).flatMap Op.bits).length = if rc = 0 then 0 else 11 := by
  unfold repOps
  split <;> simp [Op.bits]

/-- A repeat count that is pending is written sooner or later. -/
theorem refLoop_pending (z : List Byte) (m : Nat) {T : Tab} {pos : Nat} {last : Option (List Byte)} {rc : Nat} :
    ((repOps rc).flatMap Op.bits).length ≤ ((refLoop z m T pos last rc).flatMap Op.bits).length := by
  induction m generalizing T pos last rc with
  | zero => exact Nat.le_refl _
  | succ m ih =>
    rw [refLoop]
    rw [List.flatMap_append, List.length_append]
    unfold refStep
    simp only
    split
    · split
      · have := @ih (T.next z pos) (pos + 8) (some (slice z pos 8)) (rc + 1)
        rw [rep_bits] at this ⊢
        rw [if_neg (by omega)] at this
        simp only [List.flatMap_nil, List.length_nil]
        split <;> omega
      · rw [rep_bits]
        simp only [List.flatMap_cons, List.flatMap_nil, List.append_nil]
        have : (Op.bits (.rep rc)).length = 11 := by simp [Op.bits]
        split <;> omega
    · rw [List.flatMap_append, List.length_append]
      omega

theorem orefLoop_pending (z : List Byte) (m : Nat) {T : OTab} {pos : Nat} {last : Option (List Byte)} {rc : Nat} :
    ((repOps rc).flatMap Op.bits).length ≤ ((orefLoop z m T pos last rc).flatMap Op.bits).length := by
  induction m generalizing T pos last rc with
  | zero => exact Nat.le_refl _
  | succ m ih =>
    rw [orefLoop]
    rw [List.flatMap_append, List.length_append]
    unfold orefStep
    simp only
    split
    · split
      · have := @ih (T.next pos) (pos + 8) (some (slice z pos 8)) (rc + 1)
        rw [rep_bits] at this ⊢
        rw [if_neg (by omega)] at this
        simp only [List.flatMap_nil, List.length_nil]
        split <;> omega
      · rw [rep_bits]
        simp only [List.flatMap_cons, List.flatMap_nil, List.append_nil]
        have : (Op.bits (.rep rc)).length = 11 := by simp [Op.bits]
        split <;> omega
    · split
      · simp only [List.flatMap_append, List.length_append]
        omega
      · simp only [List.flatMap_append, List.length_append]
        omega

/-- The stream for a prefix: a part in common, then little of its own. -/
theorem streamBits_prefix (p x : List Byte) :
    ∃ A B C, streamBits p = A ++ B ∧ streamBits (p ++ x) = A ++ C ∧
      B.length ≤ 48 + (if p.length % 8 = 0 then 0 else 8 + 8 * (p.length % 8)) ∧
      B.length ≤ C.length + (if p.length % 8 = 0 then 0 else 8 + 8 * (p.length % 8)) := by
  obtain ⟨A, T', last', rc', h1, h2⟩ := refLoop_prefix (agree_append p x) (p.length / 8) (T := .init) (pos := 0) (last := none) (rc := 0) (by omega)
  have h3 := h2 ((p ++ x).length / 8 - p.length / 8)
  rw [show p.length / 8 + ((p ++ x).length / 8 - p.length / 8) = (p ++ x).length / 8 by
    simp only [List.length_append]; omega] at h3
  have hs : ((shortOps p).flatMap Op.bits).length = if p.length % 8 = 0 then 0 else 8 + 8 * (p.length % 8) := by
    unfold shortOps
    split
    · rfl
    · simp [Op.bits]; omega
  refine ⟨A.flatMap Op.bits, (repOps rc').flatMap Op.bits ++ (shortOps p).flatMap Op.bits ++ trailer p,
    (refLoop (p ++ x) ((p ++ x).length / 8 - p.length / 8) T' (0 + 8 * (p.length / 8)) last' rc').flatMap Op.bits ++
      (shortOps (p ++ x)).flatMap Op.bits ++ trailer (p ++ x), ?_, ?_, ?_, ?_⟩
  · unfold streamBits refOps
    rw [h1]
    simp [List.flatMap_append, List.append_assoc]
  · unfold streamBits refOps
    rw [h3]
    simp [List.flatMap_append, List.append_assoc]
  · rw [List.length_append, List.length_append, hs, rep_bits]
    have : (trailer p).length = 37 := by simp [trailer]
    split <;> split <;> omega
  · have := refLoop_pending (p ++ x) ((p ++ x).length / 8 - p.length / 8) (T := T') (pos := 0 + 8 * (p.length / 8)) (last := last') (rc := rc')
    simp only [List.length_append, hs]
    have h5 : (trailer p).length = 37 := by simp [trailer]
    have h6 : (trailer (p ++ x)).length = 37 := by simp [trailer]
    simp only [List.length_append] at this
    omega

theorem ostreamBits_prefix (p x : List Byte) (h8 : p.length % 8 = 0) :
    ∃ A B C, ostreamBits p = A ++ B ∧ ostreamBits (p ++ x) = A ++ C ∧ B.length ≤ 48 ∧ B.length ≤ C.length := by
  obtain ⟨A, T', last', rc', h1, h2⟩ := orefLoop_prefix (agree_append p x) (p.length / 8) (T := .init) (pos := 0) (last := none) (rc := 0) rfl (by omega)
  have h3 := h2 ((p ++ x).length / 8 - p.length / 8)
  rw [show p.length / 8 + ((p ++ x).length / 8 - p.length / 8) = (p ++ x).length / 8 by
    simp only [List.length_append]; omega] at h3
  refine ⟨A.flatMap Op.bits, (repOps rc').flatMap Op.bits ++ trailer p,
    (orefLoop (p ++ x) ((p ++ x).length / 8 - p.length / 8) T' (0 + 8 * (p.length / 8)) last' rc').flatMap Op.bits ++ trailer (p ++ x), ?_, ?_, ?_, ?_⟩
  · unfold ostreamBits orefOps
    rw [h1]
    simp [List.flatMap_append, List.append_assoc]
  · unfold ostreamBits orefOps
    rw [h3]
    simp [List.flatMap_append, List.append_assoc]
  · rw [List.length_append, rep_bits]
    have : (trailer p).length = 37 := by simp [trailer]
    split <;> omega
  · have := orefLoop_pending (p ++ x) ((p ++ x).length / 8 - p.length / 8) (T := T') (pos := 0 + 8 * (p.length / 8)) (last := last') (rc := rc')
    simp only [List.length_append]
    have h5 : (trailer p).length = 37 := by simp [trailer]
    have h6 : (trailer (p ++ x)).length = 37 := by simp [trailer]
    simp only [List.length_append] at this
    omega

/-- Streams that agree in their first bits agree in whole bytes. -/
theorem take_of_bits {a b : List Byte} {A B C : List Bool} {k : Nat} (ha : bytesBits a = A ++ B) (hb : bytesBits b = A ++ C)
    (hk : 8 * k ≤ A.length) : a.take k = b.take k := by
  apply bytesBits_inj
  rw [bytesBits_take, bytesBits_take, ha, hb, List.take_append_of_le_length hk, List.take_append_of_le_length hk]

end Lib842
