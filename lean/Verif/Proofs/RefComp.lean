import Verif.Proofs.SwDecomp
/-!
# A pure reference compressor

The op sequence chosen by `sw842_compress`, as a function of the input alone.
-/

namespace Lib842
open Spec

/-- `n` bytes at offset `o`. -/
def slice (x : List Byte) (o n : Nat) : List Byte := (x.drop o).take n

/-- The big-endian word at offset `o`. -/
def key (w : Nat) (x : List Byte) (o : Nat) : BitVec w :=
  BitVec.ofNat w (bitsVal (bytesBits (slice x o (w / 8))))

/-- One dictionary: lists of slots per key, and the key of each slot. -/
structure Dict (w : Nat) where
  ht : BitVec w → List Nat
  node : Nat → BitVec w

def Dict.init (w : Nat) : Dict w := ⟨fun _ => [], fun _ => 0⟩

/-- Put `v` in slot `j`. -/
def Dict.put {w : Nat} (D : Dict w) (j : Nat) (v : BitVec w) : Dict w :=
  let h1 := upd D.ht (D.node j) ((D.ht (D.node j)).erase j)
  ⟨upd h1 v (h1 v ++ [j]), upd D.node j v⟩

structure Tab where
  d8 : Dict 64
  d4 : Dict 32
  d2 : Dict 16

def Tab.init : Tab := ⟨.init _, .init _, .init _⟩

def Tab.next (T : Tab) (x : List Byte) (pos : Nat) : Tab where
  d8 := T.d8.put (pos / 8 % 256) (key 64 x pos)
  d4 := (T.d4.put (pos / 4 % 512) (key 32 x pos)).put (pos / 4 % 512 + 1) (key 32 x (pos + 4))
  d2 := (((T.d2.put (pos / 2 % 256) (key 16 x pos)).put (pos / 2 % 256 + 1) (key 16 x (pos + 2))).put
    (pos / 2 % 256 + 2) (key 16 x (pos + 4))).put (pos / 2 % 256 + 3) (key 16 x (pos + 6))

/-- The slot chosen for the `n` bytes at `o`. -/
def Tab.find (T : Tab) (x : List Byte) (n o : Nat) : Option Nat :=
  if n = 8 then (T.d8.ht (key 64 x o)).head?
  else if n = 4 then (T.d4.ht (key 32 x o)).head?
  else (T.d2.ht (key 16 x o)).head?

def Tab.arg (T : Tab) (x : List Byte) (o : Nat) : Action → Option Arg
  | .D n => some (.data (slice x o n))
  | .I n => (T.find x n o).map (.index n)

def actionSize : Action → Nat
  | .D n => n
  | .I n => n

def Tab.args (T : Tab) (x : List Byte) : List Action → Nat → Option (List Arg)
  | [], _ => some []
  | a :: as, o =>
    match T.arg x o a, T.args x as (o + actionSize a) with
    | some g, some gs => some (g :: gs)
    | _, _ => none

/-- Template codes in the order they are tried. -/
def tryOrder : List Nat :=
  [0x19, 0x18, 0x17, 0x13, 0x12, 0x16, 0x15, 0x0e, 0x09, 0x11, 0x10, 0x0d, 0x08, 0x14, 0x04, 0x0f,
   0x0c, 0x0b, 0x07, 0x06, 0x03, 0x0a, 0x05, 0x02, 0x01, 0x00]

def Tab.tryCode (T : Tab) (x : List Byte) (pos code : Nat) : Option Op :=
  match templates[code]? with
  | none => none
  | some acts => (T.args x acts pos).map (.template code)

def Tab.blockOp (T : Tab) (x : List Byte) (pos : Nat) : Op :=
  (tryOrder.findSome? (T.tryCode x pos)).getD .zeros

def repOps (rc : Nat) : List Op := if rc = 0 then [] else [.rep (rc - 1)]

def refStep (T : Tab) (x : List Byte) (pos : Nat) (last : Option (List Byte)) (rc : Nat) :
    List Op × Nat :=
  let next := slice x pos 8
  if some next = last then
    if rc + 1 ≤ 0x3f then ([], rc + 1) else ([.rep rc], 0)
  else
    (repOps rc ++ [if next = List.replicate 8 0#8 then .zeros else T.blockOp x pos], 0)

def refLoop (x : List Byte) : (k : Nat) → Tab → (pos : Nat) → Option (List Byte) → (rc : Nat) → List Op
  | 0, _, _, _, rc => repOps rc
  | k + 1, T, pos, last, rc =>
    let r := refStep T x pos last rc
    r.1 ++ refLoop x k (T.next x pos) (pos + 8) (some (slice x pos 8)) r.2

def shortOps (x : List Byte) : List Op :=
  if x.length % 8 = 0 then [] else [.short (x.drop (8 * (x.length / 8)))]

/-- The ops `sw842_compress` emits for `x`. -/
def refOps (x : List Byte) : List Op :=
  refLoop x (x.length / 8) .init 0 none 0 ++ shortOps x

/-! ## Slices and keys -/

theorem length_slice {x : List Byte} {o n : Nat} (h : o + n ≤ x.length) : (slice x o n).length = n := by
  simp [slice]; omega

theorem take_append_slice (x : List Byte) (o n : Nat) : x.take (o + n) = x.take o ++ slice x o n := by
  rw [slice, List.take_add]

theorem slice_append (x : List Byte) (o a b : Nat) : slice x o (a + b) = slice x o a ++ slice x (o + a) b := by
  unfold slice; rw [List.take_add, List.drop_drop]

theorem key_inj {w : Nat} (hw : w / 8 * 8 = w) {x : List Byte} {a b : Nat} (ha : a + w / 8 ≤ x.length)
    (hb : b + w / 8 ≤ x.length) (h : key w x a = key w x b) : slice x a (w / 8) = slice x b (w / 8) := by
  have hl : ∀ o, o + w / 8 ≤ x.length → (bytesBits (slice x o (w / 8))).length = w := by
    intro o ho; rw [length_bytesBits, length_slice ho]; omega
  have h2 := congrArg BitVec.toNat h
  unfold key at h2
  rw [BitVec.toNat_ofNat, BitVec.toNat_ofNat] at h2
  have lta := bitsVal_lt (bytesBits (slice x a (w / 8)))
  have ltb := bitsVal_lt (bytesBits (slice x b (w / 8)))
  rw [hl a ha] at lta
  rw [hl b hb] at ltb
  rw [Nat.mod_eq_of_lt lta, Nat.mod_eq_of_lt ltb] at h2
  apply bytesBits_inj
  rw [← bitsOf_bitsVal (bytesBits (slice x a (w / 8))), ← bitsOf_bitsVal (bytesBits (slice x b (w / 8))),
    hl a ha, hl b hb, h2]

theorem key_toNat {w : Nat} {x : List Byte} {o : Nat} (hw : w / 8 * 8 = w) (ho : o + w / 8 ≤ x.length) :
    bitsOf w (key w x o).toNat = bytesBits (slice x o (w / 8)) := by
  have hl : (bytesBits (slice x o (w / 8))).length = w := by
    rw [length_bytesBits, length_slice ho]; omega
  unfold key
  rw [BitVec.toNat_ofNat, bitsOf_mod]
  have := bitsOf_bitsVal (bytesBits (slice x o (w / 8)))
  rw [hl] at this
  exact this

/-! ## Dictionaries represent slot contents -/

/-- `D` holds exactly the slot contents `A`. -/
structure Dict.Rep {w : Nat} (D : Dict w) (A : Nat → Option (BitVec w)) : Prop where
  mem : ∀ v j, j ∈ D.ht v ↔ A j = some v
  node : ∀ j v, A j = some v → D.node j = v
  nodup : ∀ v, (D.ht v).Nodup

theorem Dict.Rep.init (w : Nat) : (Dict.init w).Rep (fun _ => none) :=
  ⟨by simp [Dict.init], by simp, by simp [Dict.init]⟩

theorem Dict.Rep.put {w : Nat} {D : Dict w} {A : Nat → Option (BitVec w)} (h : D.Rep A) (j : Nat)
    (v : BitVec w) : (D.put j v).Rep (upd A j (some v)) := by
  have hrem : ∀ u i, i ∈ upd D.ht (D.node j) ((D.ht (D.node j)).erase j) u ↔ i ≠ j ∧ A i = some u := by
    intro u i
    unfold upd
    by_cases hu : u = D.node j
    · rw [if_pos hu, (h.nodup _).mem_erase_iff, h.mem, hu]
    · rw [if_neg hu, h.mem]
      constructor
      · intro hA
        refine ⟨?_, hA⟩
        rintro rfl
        exact hu (h.node _ _ hA).symm
      · exact fun hA => hA.2
  have hnd : ∀ u, (upd D.ht (D.node j) ((D.ht (D.node j)).erase j) u).Nodup := by
    intro u
    unfold upd
    split
    · exact (h.nodup _).erase _
    · exact h.nodup _
  refine ⟨?_, ?_, ?_⟩
  · intro u i
    show i ∈ upd _ v _ u ↔ _
    by_cases hu : u = v
    · subst hu
      conv_lhs => unfold upd
      rw [if_pos rfl, List.mem_append, List.mem_singleton]
      have := hrem u i
      unfold upd at this ⊢
      rw [this]
      by_cases hij : i = j
      · simp [hij]
      · simp [hij]
    · conv_lhs => unfold upd
      rw [if_neg hu]
      have := hrem u i
      unfold upd at this ⊢
      rw [this]
      by_cases hij : i = j
      · simp only [hij, ne_eq, not_true, false_and, if_true, false_iff]
        intro h; exact hu (Option.some.inj h).symm
      · simp [hij]
  · intro i u hA
    show upd D.node j v i = u
    unfold upd at hA ⊢
    by_cases hij : i = j
    · rw [if_pos hij] at hA ⊢; exact Option.some.inj hA
    · rw [if_neg hij] at hA ⊢; exact h.node _ _ hA
  · intro u
    show List.Nodup (upd _ v _ u)
    have := hnd u
    by_cases hu : u = v
    · subst hu
      conv => unfold upd
      rw [if_pos rfl]
      rw [List.nodup_append]
      refine ⟨this, by simp, ?_⟩
      intro a ha b hb
      rw [List.mem_singleton] at hb
      subst hb
      exact ((hrem u a).1 ha).1
    · conv => unfold upd
      rw [if_neg hu]
      exact this

/-- Slot contents after `pos` bytes (a multiple of 8) of `x`. -/
noncomputable def slots (w n : Nat) (x : List Byte) (pos : Nat) (j : Nat) : Option (BitVec w) :=
  if j < 2 ^ indexBits n ∧ j * n + n ≤ pos then
    some (key w x (indexOffset j n (ringSize n) pos))
  else none

theorem slots_some {w n : Nat} (hn : SizeOk n) {x : List Byte} {pos j : Nat} {v : BitVec w}
    (h8 : pos % 8 = 0) :
    slots w n x pos j = some v ↔ j < 2 ^ indexBits n ∧ ∃ o, RingRef pos n j o ∧ key w x o = v := by
  have hrd : roundDown pos 8 = pos := by unfold roundDown; omega
  unfold slots
  constructor
  · intro h
    split at h
    · rename_i hc
      refine ⟨hc.1, _, ?_, Option.some.inj h⟩
      have := indexOffset_sound hn hc.1 (len := pos)
      rw [hrd] at this
      apply this
      obtain ⟨h1, h2⟩ := hc
      unfold indexOffset roundDown
      rcases hn with rfl | rfl | rfl <;> simp [ringSize, indexBits] at h1 h2 ⊢ <;>
        split <;> (try split) <;> omega
    · cases h
  · rintro ⟨hj, o, href, hk⟩
    obtain ⟨h1, h2⟩ := indexOffset_complete hn hj href
    rw [hrd] at h1 h2
    rw [if_pos, h1, hk]
    refine ⟨hj, ?_⟩
    obtain ⟨a, b, c⟩ := href
    rw [← a]
    have := Nat.mod_le o (ringSize n)
    omega

theorem slots_next8 (x : List Byte) {pos : Nat} (h8 : pos % 8 = 0) :
    slots 64 8 x (pos + 8) = upd (slots 64 8 x pos) (pos / 8 % 256) (some (key 64 x pos)) := by
  funext j
  unfold upd slots
  simp only [indexBits, ringSize, show (8 : Nat) ≠ 4 by decide, if_false]
  by_cases hj : j = pos / 8 % 256
  · rw [if_pos hj, if_pos (by omega)]
    congr 2
    unfold indexOffset roundDown
    simp only
    split <;> (try split) <;> omega
  · rw [if_neg hj]
    by_cases hc : j < 2 ^ 8 ∧ j * 8 + 8 ≤ pos
    · rw [if_pos hc, if_pos (by omega)]
      congr 2
      unfold indexOffset roundDown
      simp only
      split <;> (try split) <;> (try split) <;> (try split) <;> omega
    · rw [if_neg hc, if_neg (by omega)]

theorem slots_next4 (x : List Byte) {pos : Nat} (h8 : pos % 8 = 0) :
    slots 32 4 x (pos + 8) = upd (upd (slots 32 4 x pos) (pos / 4 % 512) (some (key 32 x pos)))
      (pos / 4 % 512 + 1) (some (key 32 x (pos + 4))) := by
  funext j
  unfold upd slots
  simp only [indexBits, ringSize, if_true]
  by_cases hj1 : j = pos / 4 % 512 + 1
  · rw [if_pos hj1, if_pos (by omega)]
    congr 2
    unfold indexOffset roundDown
    simp only
    split <;> (try split) <;> omega
  rw [if_neg hj1]
  by_cases hj : j = pos / 4 % 512
  · rw [if_pos hj, if_pos (by omega)]
    congr 2
    unfold indexOffset roundDown
    simp only
    split <;> (try split) <;> omega
  · rw [if_neg hj]
    by_cases hc : j < 2 ^ 9 ∧ j * 4 + 4 ≤ pos
    · rw [if_pos hc, if_pos (by omega)]
      congr 2
      unfold indexOffset roundDown
      simp only
      split <;> (try split) <;> (try split) <;> (try split) <;> omega
    · rw [if_neg hc, if_neg (by omega)]

theorem slots_next2 (x : List Byte) {pos : Nat} (h8 : pos % 8 = 0) :
    slots 16 2 x (pos + 8) = upd (upd (upd (upd (slots 16 2 x pos) (pos / 2 % 256) (some (key 16 x pos)))
      (pos / 2 % 256 + 1) (some (key 16 x (pos + 2))))
      (pos / 2 % 256 + 2) (some (key 16 x (pos + 4))))
      (pos / 2 % 256 + 3) (some (key 16 x (pos + 6))) := by
  funext j
  unfold upd slots
  simp only [indexBits, ringSize, show (2 : Nat) ≠ 4 by decide, if_false]
  by_cases hj3 : j = pos / 2 % 256 + 3
  · rw [if_pos hj3, if_pos (by omega)]
    congr 2
    unfold indexOffset roundDown
    simp only
    split <;> (try split) <;> omega
  rw [if_neg hj3]
  by_cases hj2 : j = pos / 2 % 256 + 2
  · rw [if_pos hj2, if_pos (by omega)]
    congr 2
    unfold indexOffset roundDown
    simp only
    split <;> (try split) <;> omega
  rw [if_neg hj2]
  by_cases hj1 : j = pos / 2 % 256 + 1
  · rw [if_pos hj1, if_pos (by omega)]
    congr 2
    unfold indexOffset roundDown
    simp only
    split <;> (try split) <;> omega
  rw [if_neg hj1]
  by_cases hj : j = pos / 2 % 256
  · rw [if_pos hj, if_pos (by omega)]
    congr 2
    unfold indexOffset roundDown
    simp only
    split <;> (try split) <;> omega
  · rw [if_neg hj]
    by_cases hc : j < 2 ^ 8 ∧ j * 2 + 2 ≤ pos
    · rw [if_pos hc, if_pos (by omega)]
      congr 2
      unfold indexOffset roundDown
      simp only
      split <;> (try split) <;> (try split) <;> (try split) <;> omega
    · rw [if_neg hc, if_neg (by omega)]

/-- The tables hold the ring buffers of the first `pos` bytes. -/
structure Tab.Rep (T : Tab) (x : List Byte) (pos : Nat) : Prop where
  d8 : T.d8.Rep (slots 64 8 x pos)
  d4 : T.d4.Rep (slots 32 4 x pos)
  d2 : T.d2.Rep (slots 16 2 x pos)

theorem slots_zero (w n : Nat) (hn : SizeOk n) (x : List Byte) : slots w n x 0 = fun _ => none := by
  funext j
  unfold slots
  rw [if_neg]
  rcases hn with rfl | rfl | rfl <;> omega

theorem Tab.Rep.init (x : List Byte) : Tab.init.Rep x 0 := by
  refine ⟨?_, ?_, ?_⟩
  · rw [slots_zero _ _ (by simp [SizeOk])]; exact .init _
  · rw [slots_zero _ _ (by simp [SizeOk])]; exact .init _
  · rw [slots_zero _ _ (by simp [SizeOk])]; exact .init _

theorem Tab.Rep.next {T : Tab} {x : List Byte} {pos : Nat} (h : T.Rep x pos) (h8 : pos % 8 = 0) :
    (T.next x pos).Rep x (pos + 8) := by
  refine ⟨?_, ?_, ?_⟩
  · rw [slots_next8 x h8]; exact h.d8.put _ _
  · rw [slots_next4 x h8]; exact (h.d4.put _ _).put _ _
  · rw [slots_next2 x h8]; exact (((h.d2.put _ _).put _ _).put _ _).put _ _

/-! ## Lookup -/

theorem Dict.Rep.find {w n : Nat} (hn : SizeOk n) (hw : w = n * 8) {D : Dict w} {x : List Byte} {pos : Nat}
    (h : D.Rep (slots w n x pos)) (h8 : pos % 8 = 0) (hpos : pos ≤ x.length) {o i : Nat}
    (ho : o + n ≤ x.length)
    (hf : (D.ht (key w x o)).head? = some i) :
    i < 2 ^ indexBits n ∧ ∃ r, RingRef pos n i r ∧ slice x r n = slice x o n := by
  have hm : i ∈ D.ht (key w x o) := List.mem_of_mem_head? hf
  rw [h.mem, slots_some hn h8] at hm
  obtain ⟨hi, r, href, hk⟩ := hm
  refine ⟨hi, r, href, ?_⟩
  have hwn : w / 8 = n := by omega
  have hr := href.2.1
  have := key_inj (w := w) (by omega) (x := x) (a := r) (b := o) (by omega) (by omega) hk
  rwa [hwn] at this

theorem Dict.Rep.find_none {w n : Nat} (hn : SizeOk n) (hw : w = n * 8) {D : Dict w} {x : List Byte} {pos : Nat}
    (h : D.Rep (slots w n x pos)) (h8 : pos % 8 = 0) {o i r : Nat}
    (hf : (D.ht (key w x o)).head? = none) (hi : i < 2 ^ indexBits n) (href : RingRef pos n i r) :
    slice x r n ≠ slice x o n := by
  intro hs
  have : i ∈ D.ht (key w x o) := by
    rw [h.mem, slots_some hn h8]
    refine ⟨hi, r, href, ?_⟩
    have hwn : w / 8 = n := by omega
    unfold key; rw [hwn, hs]
  rw [List.head?_eq_none_iff] at hf
  rw [hf] at this
  cases this

theorem Tab.Rep.find {T : Tab} {x : List Byte} {pos : Nat} (h : T.Rep x pos) (h8 : pos % 8 = 0)
    (hpos : pos ≤ x.length) {n : Nat} (hn : SizeOk n) {o i : Nat} (ho : o + n ≤ x.length)
    (hf : T.find x n o = some i) :
    i < 2 ^ indexBits n ∧ ∃ r, RingRef pos n i r ∧ slice x r n = slice x o n := by
  unfold Tab.find at hf
  rcases hn with rfl | rfl | rfl
  · rw [if_neg (by decide), if_neg (by decide)] at hf
    exact h.d2.find (by simp [SizeOk]) rfl h8 hpos ho hf
  · rw [if_neg (by decide), if_pos rfl] at hf
    exact h.d4.find (by simp [SizeOk]) rfl h8 hpos ho hf
  · rw [if_pos rfl] at hf
    exact h.d8.find (by simp [SizeOk]) rfl h8 hpos ho hf

theorem Tab.Rep.find_none {T : Tab} {x : List Byte} {pos : Nat} (h : T.Rep x pos) (h8 : pos % 8 = 0)
    {n : Nat} (hn : SizeOk n) {o i r : Nat}
    (hf : T.find x n o = none) (hi : i < 2 ^ indexBits n) (href : RingRef pos n i r) :
    slice x r n ≠ slice x o n := by
  unfold Tab.find at hf
  rcases hn with rfl | rfl | rfl
  · rw [if_neg (by decide), if_neg (by decide)] at hf
    exact h.d2.find_none (by simp [SizeOk]) rfl h8 hf hi href
  · rw [if_neg (by decide), if_pos rfl] at hf
    exact h.d4.find_none (by simp [SizeOk]) rfl h8 hf hi href
  · rw [if_pos rfl] at hf
    exact h.d8.find_none (by simp [SizeOk]) rfl h8 hf hi href

/-! ## Templates -/

def sumSizes (as : List Action) : Nat := (as.map actionSize).sum

theorem RingRef_within {pos b n i r : Nat} (h8 : pos % 8 = 0) (hb : b < 8) :
    RingRef (pos + b) n i r ↔ RingRef pos n i r := by
  unfold RingRef
  have : (pos + b) / 8 = pos / 8 := by omega
  rw [this]

theorem RingRef_lt {pos n i r : Nat} (h : RingRef pos n i r) : r + n ≤ pos := by
  have := h.2.1; omega

theorem slice_take {x : List Byte} {r n m : Nat} (h : r + n ≤ m) : slice (x.take m) r n = slice x r n := by
  unfold slice
  rw [List.drop_take, List.take_take]
  congr 1; omega

/-- The chosen arguments are well formed and reproduce the input. -/
theorem Tab.Rep.args {T : Tab} {x : List Byte} {pos : Nat} (h : T.Rep x pos) (h8 : pos % 8 = 0)
    (hpos : pos + 8 ≤ x.length) {acts : List Action} (hok : ∀ a ∈ acts, ActionOk a) {b : Nat}
    (hb : b + sumSizes acts = 8) {args : List Arg} (ha : T.args x acts (pos + b) = some args) :
    args.map Arg.action = acts ∧ (∀ a ∈ args, a.Valid) ∧
      ArgsRun (x.take (pos + b)) args (x.take (pos + 8)) := by
  induction acts generalizing b args with
  | nil =>
    simp only [Tab.args, Option.some.injEq] at ha
    subst ha
    simp only [sumSizes, List.map_nil, List.sum_nil] at hb
    have : b = 8 := by omega
    subst this
    exact ⟨rfl, by simp, .nil⟩
  | cons a acts ih =>
    have hok' : ∀ a ∈ acts, ActionOk a := fun a ha => hok a (List.mem_cons_of_mem _ ha)
    have hoka := hok a (List.mem_cons_self ..)
    have hsz : SizeOk (actionSize a) := by cases a <;> exact hoka
    have hpos' : 1 ≤ actionSize a := by rcases hsz with h | h | h <;> omega
    simp only [sumSizes, List.map_cons, List.sum_cons] at hb
    rw [Tab.args] at ha
    cases hg : T.arg x (pos + b) a with
    | none => rw [hg] at ha; cases ha
    | some g =>
      cases hgs : T.args x acts (pos + b + actionSize a) with
      | none => rw [hg, hgs] at ha; cases ha
      | some gs =>
        rw [hg, hgs] at ha
        simp only [Option.some.injEq] at ha
        subst ha
        rw [Nat.add_assoc] at hgs
        obtain ⟨hm, hv, hrun⟩ := ih hok' (b := b + actionSize a) (by unfold sumSizes; omega) hgs
        have htake : x.take (pos + (b + actionSize a)) = x.take (pos + b) ++ slice x (pos + b) (actionSize a) := by
          rw [← Nat.add_assoc, take_append_slice]
        have hfit : pos + b + actionSize a ≤ x.length := by omega
        cases a with
        | D n =>
          simp only [Tab.arg, Option.some.injEq] at hg
          subst hg
          simp only [actionSize] at htake hfit
          refine ⟨?_, ?_, ?_⟩
          · simp [Arg.action, length_slice hfit, hm]
          · intro a ha
            rcases List.mem_cons.1 ha with rfl | h
            · trivial
            · exact hv a h
          · refine .cons .data ?_
            rw [← htake]; exact hrun
        | I n =>
          simp only [Tab.arg, Option.map_eq_some_iff] at hg
          obtain ⟨i, hf, rfl⟩ := hg
          simp only [actionSize] at htake hfit
          obtain ⟨hi, r, href, hs⟩ := h.find h8 (by omega) hoka hfit hf
          refine ⟨?_, ?_, ?_⟩
          · simp [Arg.action, hm]
          · intro a ha
            rcases List.mem_cons.1 ha with rfl | h
            · exact hi
            · exact hv a h
          · have hlen : (x.take (pos + b)).length = pos + b := by simp; omega
            have hrl := RingRef_lt href
            refine .cons (.index (o := r) ?_) ?_
            · rw [hlen, RingRef_within h8 (by simp only [actionSize] at hpos'; simp only [actionSize] at hb; omega)]
              exact href
            · have : ((x.take (pos + b)).drop r).take n = slice x (pos + b) n := by
                have := slice_take (x := x) (r := r) (n := n) (m := pos + b) (by omega)
                unfold slice at this hs ⊢
                rw [this, hs]
              rw [this, ← htake]
              exact hrun

/-- If the arguments of a template can reproduce the input at all, they are found. -/
theorem Tab.Rep.args_isSome {T : Tab} {x : List Byte} {pos : Nat} (h : T.Rep x pos) (h8 : pos % 8 = 0)
    (hpos : pos + 8 ≤ x.length) {args : List Arg} (hok : ∀ a ∈ args, ActionOk a.action)
    (hval : ∀ a ∈ args, a.Valid) {b : Nat} (hb : b + sumSizes (args.map Arg.action) = 8)
    (hrun : ArgsRun (x.take (pos + b)) args (x.take (pos + 8))) :
    ∃ gs, T.args x (args.map Arg.action) (pos + b) = some gs := by
  induction args generalizing b with
  | nil => exact ⟨[], rfl⟩
  | cons a args ih =>
    have hok' : ∀ a ∈ args, ActionOk a.action := fun a ha => hok a (List.mem_cons_of_mem _ ha)
    have hval' : ∀ a ∈ args, a.Valid := fun a ha => hval a (List.mem_cons_of_mem _ ha)
    have hoka := hok a (List.mem_cons_self ..)
    have hva := hval a (List.mem_cons_self ..)
    have hsz : SizeOk (actionSize a.action) := by cases a <;> exact hoka
    simp only [sumSizes, List.map_cons, List.sum_cons] at hb
    have hfit : pos + b + actionSize a.action ≤ x.length := by omega
    have hlen : (x.take (pos + b)).length = pos + b := by simp; omega
    cases hrun with
    | @cons _ _ o1 _ _ h1 h2 =>
      -- every intermediate output is a prefix of the final one
      have hpre : ∀ {a b : List Byte} {as : List Arg}, ArgsRun a as b → a <+: b := by
        intro a b as hr
        induction hr with
        | nil => exact List.prefix_rfl
        | cons hs _ ih =>
          refine List.IsPrefix.trans ?_ ih
          cases hs <;> exact List.prefix_append ..
      have hp1 := hpre h2
      have ho1len : o1.length = pos + b + actionSize a.action := by
        cases h1 with
        | data => simp only [hlen, Arg.action, actionSize, List.length_append]
        | index href =>
          have := href.2.1
          rw [hlen] at this
          simp only [Arg.action, actionSize, List.length_append, List.length_take, List.length_drop]
          omega
      have ho1 : o1 = x.take (pos + (b + actionSize a.action)) := by
        have := List.prefix_iff_eq_take.1 hp1
        rw [this, List.take_take, ho1len]
        congr 1; omega
      obtain ⟨gs, hgs⟩ := ih hok' hval' (b := b + actionSize a.action) (by unfold sumSizes; omega)
        (by rw [← ho1]; exact h2)
      rw [List.map_cons, Tab.args, Nat.add_assoc, hgs]
      cases h1 with
      | data => exact ⟨_, rfl⟩
      | @index n i r href =>
        rw [hlen, RingRef_within h8 (by
          simp only [Arg.action, actionSize] at hsz hb
          rcases hsz with h | h | h <;> omega)] at href
        cases hf : T.find x n (pos + b) with
        | some i => exact ⟨.index n i :: gs, by simp [Tab.arg, Arg.action, hf]⟩
        | none =>
          exfalso
          refine h.find_none h8 hsz hf hva href ?_
          have hrl := RingRef_lt href
          rw [← Nat.add_assoc, take_append_slice x (pos + b)] at ho1
          have := List.append_cancel_left ho1
          rw [← slice, slice_take (by omega)] at this
          exact this

/-- Bits of an action's argument. -/
def actionBits : Action → Nat
  | .D n => 8 * n
  | .I n => indexBits n

theorem arg_bits_length (a : Arg) : a.bits.length = actionBits a.action := by
  cases a <;> simp [Arg.bits, Arg.action, actionBits]

/-- Bits of a template op. -/
def templateBits (acts : List Action) : Nat := 5 + (acts.map actionBits).sum

theorem template_bits_length (code : Nat) (args : List Arg) :
    (Op.template code args).bits.length = templateBits (args.map Arg.action) := by
  rw [Op.bits, List.length_append, length_bitsOf, templateBits, List.length_flatMap, List.map_map]
  congr 2
  apply List.map_congr_left
  intro a _
  exact arg_bits_length a

theorem templates_ok : ∀ code acts, templates[code]? = some acts →
    code < 26 ∧ (∀ a ∈ acts, ActionOk a) ∧ sumSizes acts = 8 ∧ templateBits acts ≤ 69 := by
  intro code acts h
  have hc : code < 26 := by
    by_contra hge
    rw [List.getElem?_eq_none (by simp [templates]; omega)] at h
    cases h
  refine ⟨hc, ?_⟩
  interval_cases code <;> (simp only [templates] at h; obtain rfl := Option.some.inj h) <;>
    simp [ActionOk, SizeOk, sumSizes, actionSize, templateBits, actionBits, indexBits]

/-- Bits of the template with the given code. -/
def codeBits (code : Nat) : Nat := templateBits (templates[code]?.getD [])

theorem tryOrder_sorted : tryOrder.Pairwise (fun a b => codeBits a ≤ codeBits b) := by
  decide

theorem mem_tryOrder : ∀ c, c < 26 → c ∈ tryOrder := by decide

/-- No template with the same effect is shorter. -/
def Cheapest (out : List Byte) (op : Op) : Prop :=
  ∀ out', OpStep out op out' → ∀ code args, (Op.template code args).Valid →
    OpStep out (.template code args) out' → op.bits.length ≤ (Op.template code args).bits.length

theorem _root_.Lib842.Spec.ArgStep.det {o a o1 o2} (h1 : ArgStep o a o1) (h2 : ArgStep o a o2)
    (hv : a.Valid) (ha : ActionOk a.action) : o1 = o2 := by
  cases h1 with
  | data => cases h2; rfl
  | index r1 =>
    cases h2 with
    | index r2 =>
      rw [← (indexOffset_complete ha hv r1).1, ← (indexOffset_complete ha hv r2).1]

theorem _root_.Lib842.Spec.ArgsRun.det {o : List Byte} {as : List Arg} {o1 o2 : List Byte}
    (h1 : ArgsRun o as o1) (h2 : ArgsRun o as o2)
    (hv : ∀ a ∈ as, a.Valid) (ha : ∀ a ∈ as, ActionOk a.action) : o1 = o2 := by
  induction h1 with
  | nil => cases h2; rfl
  | cons hs _ ih =>
    cases h2 with
    | cons hs' hr' =>
      have := hs.det hs' (hv _ (List.mem_cons_self ..)) (ha _ (List.mem_cons_self ..))
      subst this
      exact ih hr' (fun a h => hv a (List.mem_cons_of_mem _ h)) (fun a h => ha a (List.mem_cons_of_mem _ h))

theorem _root_.Lib842.Spec.OpStep.det {o : List Byte} {op : Op} {o1 o2 : List Byte} (hv : op.Valid)
    (h1 : OpStep o op o1) (h2 : OpStep o op o2) : o1 = o2 := by
  cases h1 with
  | @template code args _ hr =>
    cases h2 with
    | template hr' =>
      refine hr.det hr' hv.2 ?_
      have := (templates_ok _ _ hv.1).2.1
      exact fun a ha => this _ (List.mem_map_of_mem ha)
  | _ => cases h2; rfl

theorem codeBits_of {code : Nat} {acts : List Action} (h : templates[code]? = some acts) :
    codeBits code = templateBits acts := by
  unfold codeBits; rw [h]; rfl

theorem Tab.Rep.blockOp {T : Tab} {x : List Byte} {pos : Nat} (h : T.Rep x pos) (h8 : pos % 8 = 0)
    (hpos : pos + 8 ≤ x.length) :
    (T.blockOp x pos).Valid ∧ (T.blockOp x pos).isShort = false ∧
    OpStep (x.take pos) (T.blockOp x pos) (x.take (pos + 8)) ∧
    (T.blockOp x pos).bits.length ≤ 69 ∧ Cheapest (x.take pos) (T.blockOp x pos) := by
  -- the literal template is always available
  have h0 : ∃ op, tryOrder.findSome? (T.tryCode x pos) = some op := by
    rw [← Option.isSome_iff_exists, List.findSome?_isSome_iff]
    exact ⟨0, by decide, by simp [Tab.tryCode, templates, Tab.args, Tab.arg]⟩
  obtain ⟨op, hop⟩ := h0
  have hbo : T.blockOp x pos = op := by unfold Tab.blockOp; rw [hop]; rfl
  rw [hbo]
  obtain ⟨l1, code, l2, hl, hc, hno⟩ := List.findSome?_eq_some_iff.1 hop
  unfold Tab.tryCode at hc
  cases ht : templates[code]? with
  | none => rw [ht] at hc; cases hc
  | some acts =>
    rw [ht] at hc
    simp only [Option.map_eq_some_iff] at hc
    obtain ⟨args, hargs, rfl⟩ := hc
    obtain ⟨hclt, hok, hsum, hbits⟩ := templates_ok _ _ ht
    obtain ⟨hm, hv, hrun⟩ := h.args h8 hpos hok (b := 0) (by omega) hargs
    have hlen := template_bits_length code args
    rw [hm] at hlen
    have hval : (Op.template code args).Valid := ⟨by rw [ht, hm], hv⟩
    have hstep : OpStep (x.take pos) (.template code args) (x.take (pos + 8)) := .template hrun
    refine ⟨hval, rfl, hstep, by omega, ?_⟩
    intro out' hs code' args' hv' hs'
    have hout : out' = x.take (pos + 8) := OpStep.det hval hs hstep
    subst hout
    cases hs' with
    | template hr' =>
      obtain ⟨hclt', hok', hsum', -⟩ := templates_ok _ _ hv'.1
      obtain ⟨gs, hgs⟩ := h.args_isSome h8 hpos (args := args')
        (fun a ha => hok' _ (List.mem_map_of_mem ha)) hv'.2 (b := 0) (by omega) hr'
      have hsome : T.tryCode x pos code' ≠ none := by
        unfold Tab.tryCode
        rw [hv'.1]
        simp only
        rw [Nat.add_zero] at hgs
        rw [hgs]; simp
      have hmem := mem_tryOrder code' hclt'
      rw [hl, List.mem_append] at hmem
      rcases hmem with hmem | hmem
      · exact absurd (hno _ hmem) hsome
      · have hsort := tryOrder_sorted
        rw [hl, List.pairwise_append] at hsort
        have hle : codeBits code ≤ codeBits code' := by
          rcases List.mem_cons.1 hmem with rfl | hmem
          · exact Nat.le_refl _
          · exact (List.pairwise_cons.1 hsort.2.1).1 _ hmem
        rw [hlen, template_bits_length, ← codeBits_of ht, ← codeBits_of hv'.1]
        exact hle

/-! ## The whole op sequence -/

/-- A run in which every op satisfies `P` with respect to the output before it. -/
inductive RunP (P : List Byte → Op → Prop) : List Byte → List Op → List Byte → Prop
  | nil {out} : RunP P out [] out
  | cons {out op out' ops out''} : P out op → OpStep out op out' → RunP P out' ops out'' →
      RunP P out (op :: ops) out''

theorem RunP.run {P out ops out'} (h : RunP P out ops out') : Run out ops out' := by
  induction h with
  | nil => exact .nil
  | cons _ hs _ ih => exact .cons hs ih

theorem RunP.append {P a ops b ops' c} (h : RunP P a ops b) (h' : RunP P b ops' c) :
    RunP P a (ops ++ ops') c := by
  induction h with
  | nil => exact h'
  | cons hp hs _ ih => exact .cons hp hs (ih h')

theorem RunP.single {P : List Byte → Op → Prop} {a op b} (hp : P a op) (hs : OpStep a op b) :
    RunP P a [op] b := .cons hp hs .nil

/-- Properties of the ops chosen for complete blocks. -/
def BlockGood (out : List Byte) (op : Op) : Prop :=
  op.Valid ∧ op.isShort = false ∧ out.length % 8 = 0 ∧
  (∀ code args, op = .template code args → Cheapest out op)

/-- Loop invariant: `out` has been produced by the ops emitted so far, `rc`
more copies of its last block are pending. -/
structure LInv (x : List Byte) (pos : Nat) (last : Option (List Byte)) (rc : Nat) (out : List Byte) : Prop where
  pend : out ++ (List.replicate rc (out.drop (out.length - 8))).flatten = x.take pos
  len : rc ≠ 0 → 8 ≤ out.length
  last : ∀ blk, last = some blk → 8 ≤ out.length ∧ blk = out.drop (out.length - 8)
  rc : rc ≤ 63

theorem flatten_len8 (out : List Byte) (h : 8 ≤ out.length) (k : Nat) :
    ((List.replicate k (out.drop (out.length - 8))).flatten).length = k * 8 := by
  simp; omega

theorem LInv.flush {x pos last rc out} (h : LInv x pos last rc out) (h8 : pos % 8 = 0)
    (hpos : pos ≤ x.length) : RunP BlockGood out (repOps rc) (x.take pos) := by
  unfold repOps
  by_cases hz : rc = 0
  · rw [if_pos hz]
    have := h.pend
    rw [hz] at this
    simp at this
    rw [this]; exact .nil
  · rw [if_neg hz]
    have hl := h.len hz
    have hrc := h.rc
    have hlen := congrArg List.length h.pend
    rw [List.length_append, flatten_len8 out hl, List.length_take, Nat.min_eq_left hpos] at hlen
    refine .single ⟨?_, rfl, by omega, by intro _ _ h; cases h⟩ ?_
    · show rc - 1 < 64; omega
    · rw [← h.pend]
      have := OpStep.rep (out := out) (n := rc - 1) hl
      rw [Nat.sub_add_cancel (by omega)] at this
      exact this

theorem refLoop_run (x : List Byte) (k : Nat) {T : Tab} {pos : Nat} {last : Option (List Byte)} {rc : Nat}
    {out : List Byte} (hT : T.Rep x pos) (h8 : pos % 8 = 0) (hpos : pos + 8 * k ≤ x.length)
    (hi : LInv x pos last rc out) :
    RunP BlockGood out (refLoop x k T pos last rc) (x.take (pos + 8 * k)) := by
  induction k generalizing T pos last rc out with
  | zero => exact hi.flush h8 (by omega)
  | succ k ih =>
    rw [refLoop]
    rw [show pos + 8 * (k + 1) = (pos + 8) + 8 * k by omega]
    have hnext : x.take (pos + 8) = x.take pos ++ slice x pos 8 := take_append_slice x pos 8
    have hsl : (slice x pos 8).length = 8 := length_slice (by omega)
    unfold refStep
    simp only
    by_cases heq : some (slice x pos 8) = last
    · rw [if_pos heq]
      obtain ⟨hl8, hblk⟩ := hi.last _ heq.symm
      by_cases hrc : rc + 1 ≤ 0x3f
      · rw [if_pos hrc]
        simp only [List.nil_append]
        refine ih (hT.next h8) (by omega) (by omega) ⟨?_, fun _ => hl8, ?_, hrc⟩
        · rw [hnext, ← hi.pend, List.replicate_succ', List.flatten_append, List.append_assoc, hblk]
          simp
        · intro blk hb
          obtain rfl := Option.some.inj hb
          exact ⟨hl8, hblk⟩
      · rw [if_neg hrc]
        have hrc63 : rc = 63 := by have := hi.rc; omega
        have hstep := OpStep.rep (out := out) (n := rc) hl8
        have hres : out ++ (List.replicate (rc + 1) (out.drop (out.length - 8))).flatten = x.take (pos + 8) := by
          rw [hnext, ← hi.pend, List.replicate_succ', List.flatten_append, List.append_assoc, hblk]
          simp
        rw [hres] at hstep
        have hlen := congrArg List.length hi.pend
        rw [List.length_append, flatten_len8 out hl8, List.length_take, Nat.min_eq_left (by omega)] at hlen
        refine .append (.single ⟨?_, rfl, by omega, by intro _ _ h; cases h⟩ hstep)
          (ih (hT.next h8) (by omega) (by omega) ⟨by simp, by simp, ?_, by omega⟩)
        · show rc < 64; omega
        · intro blk hb
          obtain rfl := Option.some.inj hb
          refine ⟨by simp; omega, ?_⟩
          rw [hnext, List.length_append, hsl, Nat.add_sub_cancel]; simp
    · rw [if_neg heq]
      have hfl := hi.flush h8 (by omega)
      have hop : BlockGood (x.take pos)
            (if slice x pos 8 = List.replicate 8 0#8 then .zeros else T.blockOp x pos) ∧
          OpStep (x.take pos) (if slice x pos 8 = List.replicate 8 0#8 then .zeros else T.blockOp x pos)
            (x.take (pos + 8)) := by
        have hlp : (x.take pos).length % 8 = 0 := by simp; omega
        by_cases hz : slice x pos 8 = List.replicate 8 0#8
        · rw [if_pos hz, hnext, hz]
          exact ⟨⟨trivial, rfl, hlp, by intro _ _ h; cases h⟩, .zeros⟩
        · rw [if_neg hz]
          obtain ⟨hv, hns, hst, -, hch⟩ := hT.blockOp h8 (by omega)
          exact ⟨⟨hv, hns, hlp, fun _ _ _ => hch⟩, hst⟩
      refine .append (.append hfl (.single hop.1 hop.2))
        (ih (hT.next h8) (by omega) (by omega) ⟨by simp, by simp, ?_, by omega⟩)
      intro blk hb
      obtain rfl := Option.some.inj hb
      refine ⟨by simp; omega, ?_⟩
      rw [hnext, List.length_append, hsl, Nat.add_sub_cancel]; simp

theorem refLoop_ok (x : List Byte) :
    RunP BlockGood [] (refLoop x (x.length / 8) .init 0 none 0) (x.take (8 * (x.length / 8))) := by
  have := refLoop_run x (x.length / 8) (T := .init) (pos := 0) (last := none) (rc := 0) (out := [])
    (.init x) rfl (by omega) ⟨by simp, by simp, by simp, by omega⟩
  rwa [Nat.zero_add] at this

theorem RunP.forall {P a ops b} (h : RunP P a ops b) : ∀ op ∈ ops, ∃ o, P o op := by
  induction h with
  | nil => simp
  | cons hp _ _ ih =>
    intro op' hm
    rcases List.mem_cons.1 hm with rfl | hm
    · exact ⟨_, hp⟩
    · exact ih _ hm

theorem refOps_expands (x : List Byte) : Expands (refOps x) x := by
  have hr := refLoop_ok x
  refine ⟨?_, ?_⟩
  · intro op hop
    rcases List.mem_append.1 hop with h | h
    · obtain ⟨o, ho⟩ := hr.forall op h
      exact ho.1
    · unfold shortOps at h
      split at h
      · cases h
      · rw [List.mem_singleton] at h
        subst h
        simp only [Op.Valid, List.length_drop]; omega
  · have happ : ∀ {a b c : List Byte} {l l' : List Op}, Run a l b → Run b l' c → Run a (l ++ l') c := by
      intro a b c l l' h h'
      induction h with
      | nil => exact h'
      | cons hs _ ih => exact .cons hs (ih h')
    refine happ hr.run ?_
    unfold shortOps
    split
    · rw [List.take_of_length_le (by omega)]; exact .nil
    · have : Run (x.take (8 * (x.length / 8))) [.short (x.drop (8 * (x.length / 8)))]
          (x.take (8 * (x.length / 8)) ++ x.drop (8 * (x.length / 8))) := .cons .short .nil
      rwa [List.take_append_drop] at this

theorem refLoop_bits (x : List Byte) (k : Nat) {T : Tab} {pos : Nat} {last : Option (List Byte)} {rc : Nat}
    (hT : T.Rep x pos) (h8 : pos % 8 = 0) (hpos : pos + 8 * k ≤ x.length) :
    ((refLoop x k T pos last rc).flatMap Op.bits).length ≤ 69 * (k + rc) := by
  have hrep : ∀ rc, ((repOps rc).flatMap Op.bits).length ≤ 11 * rc := by
    intro rc
    unfold repOps
    split
    · simp
    · simp [Op.bits]; omega
  induction k generalizing T pos last rc with
  | zero => have := hrep rc; rw [refLoop]; omega
  | succ k ih =>
    rw [refLoop]
    simp only [List.flatMap_append, List.length_append]
    have ih' := fun (last : Option (List Byte)) rc =>
      ih (hT.next h8) (last := last) (rc := rc) (by omega) (by omega)
    unfold refStep
    simp only
    split
    · split
      · have := ih' (some (slice x pos 8)) (rc + 1)
        simp only [List.flatMap_nil, List.length_nil]; omega
      · have := ih' (some (slice x pos 8)) 0
        simp only [List.flatMap_cons, List.flatMap_nil, List.append_nil, Op.bits, List.length_append,
          length_bitsOf]
        omega
    · have := ih' (some (slice x pos 8)) 0
      have h1 := hrep rc
      simp only [List.flatMap_append, List.length_append, List.flatMap_cons, List.flatMap_nil,
        List.append_nil]
      have h2 : (Op.bits (if slice x pos 8 = List.replicate 8 0#8 then .zeros else T.blockOp x pos)).length ≤ 69 := by
        split
        · simp [Op.bits]
        · exact (hT.blockOp h8 (by omega)).2.2.2.1
      omega

end Lib842
