import Verif.Proofs.RefComp
/-!
# The software compressor emits the reference op sequence
-/

namespace Lib842
open Spec

def Comp.setW (s : Comp) (w : Writer) : Comp := { s with w := w }

/-- `f`, from state `s` (whatever the writer), returns `a`, appends the bits `B`
and ends in `s'`; if the bits do not fit it fails with `ENOSPC`. -/
structure CEmits {α : Type} (f : M Comp α) (s : Comp) (a : α) (B : List Bool) (s' : Comp) : Prop where
  ok : ∀ w, w.Inv → w.P + B.length ≤ 8 * w.cap →
    ∃ w', f (s.setW w) = .ok a (s'.setW w') ∧ w'.Inv ∧ w'.cap = w.cap ∧ w'.wbits = w.wbits ++ B
  full : ∀ w, w.Inv → 8 * w.cap < w.P + B.length →
    ∃ q, f (s.setW w) = .err .ENOSPC q ∧ q.w.Inv ∧ q.w.cap = w.cap ∧ w.P ≤ q.w.P

/-- As `CEmits`, but running out of space may also go unnoticed, leaving less
than 11 free bits. -/
structure LEmits {α : Type} (f : M Comp α) (s : Comp) (a : α) (B : List Bool) (s' : Comp) : Prop where
  ok : ∀ w, w.Inv → w.P + B.length ≤ 8 * w.cap →
    ∃ w', f (s.setW w) = .ok a (s'.setW w') ∧ w'.Inv ∧ w'.cap = w.cap ∧ w'.wbits = w.wbits ++ B
  full : ∀ w, w.Inv → 8 * w.cap < w.P + B.length →
    (∃ q, f (s.setW w) = .err .ENOSPC q ∧ q.w.Inv ∧ q.w.cap = w.cap ∧ w.P ≤ q.w.P) ∨
    (∃ w', f (s.setW w) = .ok a (s'.setW w') ∧ w'.Inv ∧ w'.cap = w.cap ∧ w.P ≤ w'.P ∧
      8 * w.cap < w'.P + 11)

theorem P_of_wbits {w w' : Writer} (hi : w.Inv) (hi' : w'.Inv) {B : List Bool}
    (h : w'.wbits = w.wbits ++ B) : w'.P = w.P + B.length := by
  rw [← hi'.length_wbits, h, List.length_append, hi.length_wbits]

theorem CEmits.bind {α β : Type} {f : M Comp α} {g : α → M Comp β} {s s1 s2 : Comp} {a : α} {b : β}
    {A B : List Bool} (hf : CEmits f s a A s1) (hg : CEmits (g a) s1 b B s2) :
    CEmits (f >>= g) s b (A ++ B) s2 := by
  constructor
  · intro w hw hfit
    simp only [List.length_append] at hfit
    obtain ⟨w1, h1, hi1, hc1, hb1⟩ := hf.ok w hw (by omega)
    have hP := P_of_wbits hw hi1 hb1
    obtain ⟨w2, h2, hi2, hc2, hb2⟩ := hg.ok w1 hi1 (by rw [hc1, hP]; omega)
    exact ⟨w2, by rw [M.bind_ok h1, h2], hi2, hc2.trans hc1, by rw [hb2, hb1, List.append_assoc]⟩
  · intro w hw hfull
    simp only [List.length_append] at hfull
    by_cases hfit : w.P + A.length ≤ 8 * w.cap
    · obtain ⟨w1, h1, hi1, hc1, hb1⟩ := hf.ok w hw hfit
      have hP := P_of_wbits hw hi1 hb1
      obtain ⟨q, h2, hi2, hc2, hp2⟩ := hg.full w1 hi1 (by rw [hc1, hP]; omega)
      exact ⟨q, by rw [M.bind_ok h1, h2], hi2, hc2.trans hc1, by omega⟩
    · obtain ⟨q, h1, hi1, hc1, hp1⟩ := hf.full w hw (by omega)
      exact ⟨q, M.bind_err h1, hi1, hc1, hp1⟩

theorem LEmits.bind {α β : Type} {f : M Comp α} {g : α → M Comp β} {s s1 s2 : Comp} {a : α} {b : β}
    {A B : List Bool} (hf : LEmits f s a A s1) (hg : LEmits (g a) s1 b B s2) :
    LEmits (f >>= g) s b (A ++ B) s2 := by
  constructor
  · intro w hw hfit
    simp only [List.length_append] at hfit
    obtain ⟨w1, h1, hi1, hc1, hb1⟩ := hf.ok w hw (by omega)
    have hP := P_of_wbits hw hi1 hb1
    obtain ⟨w2, h2, hi2, hc2, hb2⟩ := hg.ok w1 hi1 (by rw [hc1, hP]; omega)
    exact ⟨w2, by rw [M.bind_ok h1, h2], hi2, hc2.trans hc1, by rw [hb2, hb1, List.append_assoc]⟩
  · intro w hw hfull
    simp only [List.length_append] at hfull
    have key : ∀ w1, f (s.setW w) = .ok a (s1.setW w1) → w1.Inv → w1.cap = w.cap → w.P ≤ w1.P →
        (8 * w.cap < w1.P + B.length ∨ 8 * w.cap < w1.P + 11) →
        (∃ q, (f >>= g) (s.setW w) = .err .ENOSPC q ∧ q.w.Inv ∧ q.w.cap = w.cap ∧ w.P ≤ q.w.P) ∨
        (∃ w', (f >>= g) (s.setW w) = .ok b (s2.setW w') ∧ w'.Inv ∧ w'.cap = w.cap ∧ w.P ≤ w'.P ∧
          8 * w.cap < w'.P + 11) := by
      intro w1 h1 hi1 hc1 hp1 hor
      rw [M.bind_ok h1]
      by_cases hfit : w1.P + B.length ≤ 8 * w1.cap
      · obtain ⟨w2, h2, hi2, hc2, hb2⟩ := hg.ok w1 hi1 hfit
        have hP := P_of_wbits hi1 hi2 hb2
        exact .inr ⟨w2, h2, hi2, hc2.trans hc1, by omega, by omega⟩
      · rcases hg.full w1 hi1 (by omega) with ⟨q, h2, hi2, hc2, hp2⟩ | ⟨w2, h2, hi2, hc2, hp2, hn2⟩
        · exact .inl ⟨q, h2, hi2, hc2.trans hc1, by omega⟩
        · exact .inr ⟨w2, h2, hi2, hc2.trans hc1, by omega, by rw [← hc1]; exact hn2⟩
    by_cases hfit : w.P + A.length ≤ 8 * w.cap
    · obtain ⟨w1, h1, hi1, hc1, hb1⟩ := hf.ok w hw hfit
      have hP := P_of_wbits hw hi1 hb1
      exact key w1 h1 hi1 hc1 (by omega) (.inl (by omega))
    · rcases hf.full w hw (by omega) with ⟨q, h1, hi1, hc1, hp1⟩ | ⟨w1, h1, hi1, hc1, hp1, hn1⟩
      · exact .inl ⟨q, M.bind_err h1, hi1, hc1, hp1⟩
      · exact key w1 h1 hi1 hc1 hp1 (.inr hn1)

theorem CEmits.toL {α : Type} {f : M Comp α} {s s' : Comp} {a : α} {B : List Bool}
    (h : CEmits f s a B s') : LEmits f s a B s' :=
  ⟨h.ok, fun w hw hf => .inl (h.full w hw hf)⟩

/-- A following write of at least 11 bits notices the missing space. -/
theorem LEmits.bindC {α β : Type} {f : M Comp α} {g : α → M Comp β} {s s1 s2 : Comp} {a : α} {b : β}
    {A B : List Bool} (hf : LEmits f s a A s1) (hg : CEmits (g a) s1 b B s2) (h11 : 11 ≤ B.length) :
    CEmits (f >>= g) s b (A ++ B) s2 := by
  constructor
  · exact (hf.bind hg.toL).ok
  · intro w hw hfull
    simp only [List.length_append] at hfull
    by_cases hfit : w.P + A.length ≤ 8 * w.cap
    · obtain ⟨w1, h1, hi1, hc1, hb1⟩ := hf.ok w hw hfit
      have hP := P_of_wbits hw hi1 hb1
      obtain ⟨q, h2, hi2, hc2, hp2⟩ := hg.full w1 hi1 (by rw [hc1, hP]; omega)
      exact ⟨q, by rw [M.bind_ok h1, h2], hi2, hc2.trans hc1, by omega⟩
    · rcases hf.full w hw (by omega) with ⟨q, h1, hi1, hc1, hp1⟩ | ⟨w1, h1, hi1, hc1, hp1, hn1⟩
      · exact ⟨q, M.bind_err h1, hi1, hc1, hp1⟩
      · obtain ⟨q, h2, hi2, hc2, hp2⟩ := hg.full w1 hi1 (by omega)
        exact ⟨q, by rw [M.bind_ok h1, h2], hi2, hc2.trans hc1, by omega⟩

theorem CEmits.of_pure {α : Type} {f : M Comp α} {s s' : Comp} {a : α}
    (h : ∀ w, f (s.setW w) = .ok a (s'.setW w)) : CEmits f s a [] s' := by
  constructor
  · intro w hw _
    exact ⟨w, h w, hw, rfl, by simp⟩
  · intro w hw hf
    have := hw.P_le
    simp only [List.length_nil] at hf
    omega

theorem CEmits.pure {α : Type} (s : Comp) (a : α) : CEmits (Pure.pure a : M Comp α) s a [] s :=
  .of_pure fun _ => rfl

theorem CEmits.lift {f : M Writer Unit} {B : List Bool} (h : Emits f B) (s : Comp) :
    CEmits (liftW f) s () B s := by
  constructor
  · intro w hw hfit
    obtain ⟨w', h1, hrest⟩ := h.ok w hw hfit
    exact ⟨w', by simp [liftW, Comp.setW, h1], hrest⟩
  · intro w hw hfull
    obtain ⟨w', h1, hrest⟩ := h.full w hw hfull
    exact ⟨s.setW w', by simp [liftW, Comp.setW, h1], hrest⟩

theorem CEmits.get_bind {β : Type} {g : Comp → M Comp β} {s s2 : Comp} {b : β} {B : List Bool}
    (h : ∀ w, CEmits (g (s.setW w)) s b B s2) : CEmits (M.get >>= g) s b B s2 := by
  constructor
  · intro w hw hfit
    obtain ⟨w', h1, hrest⟩ := (h w).ok w hw hfit
    exact ⟨w', by rw [M.get_bind_apply]; exact h1, hrest⟩
  · intro w hw hfull
    obtain ⟨w', h1, hrest⟩ := (h w).full w hw hfull
    exact ⟨w', by rw [M.get_bind_apply]; exact h1, hrest⟩

theorem CEmits.access_bind {α β : Type} {f : Comp → Option α} {g : α → M Comp β} {s s2 : Comp} {a : α}
    {b : β} {B : List Bool}
    (hf : ∀ w, f (s.setW w) = some a) (h : CEmits (g a) s b B s2) :
    CEmits (M.access f >>= g) s b B s2 := by
  have h1 : CEmits (M.access f) s a [] s := .of_pure fun w => by simp [M.access, hf w]
  simpa using h1.bind h

theorem CEmits.modify_bind {β : Type} {f : Comp → Comp} {g : Unit → M Comp β} {s s1 s2 : Comp}
    {b : β} {B : List Bool}
    (hf : ∀ w, f (s.setW w) = s1.setW w) (h : CEmits (g ()) s1 b B s2) :
    CEmits (M.modify f >>= g) s b B s2 := by
  have h1 : CEmits (M.modify f) s () [] s1 := .of_pure fun w => by simp [hf w]
  simpa using h1.bind h

theorem CEmits.update_bind {β : Type} {f : Comp → Option Comp} {g : Unit → M Comp β} {s s1 s2 : Comp}
    {b : β} {B : List Bool}
    (hf : ∀ w, f (s.setW w) = some (s1.setW w)) (h : CEmits (g ()) s1 b B s2) :
    CEmits (M.update f >>= g) s b B s2 := by
  have h1 : CEmits (M.update f) s () [] s1 := .of_pure fun w => by simp [M.update, hf w]
  simpa using h1.bind h

theorem CEmits.addBits_bind {β : Type} (e : Endian) {d : BitVec 64} {n : Nat} {B : List Bool}
    {g : Unit → M Comp β} {s s2 : Comp} {b : β} {R : List Bool}
    (hn1 : 1 ≤ n) (hn : n ≤ 64) (hd : d.toNat < 2 ^ n) (hB : bitsOf n d.toNat = B)
    (h : CEmits (g ()) s b R s2) :
    CEmits (liftW (addBits e d n) >>= g) s b (B ++ R) s2 := by
  subst hB
  exact (CEmits.lift (addBits_emits e d n hn1 hn hd) s).bind h

theorem CEmits.addBits_last (e : Endian) {d : BitVec 64} {n : Nat} {B : List Bool}
    {s : Comp} (hn1 : 1 ≤ n) (hn : n ≤ 64) (hd : d.toNat < 2 ^ n) (hB : bitsOf n d.toNat = B) :
    CEmits (liftW (addBits e d n)) s () B s := by
  subst hB
  exact CEmits.lift (addBits_emits e d n hn1 hn hd) s

/-! ## Loads -/

theorem eq_key {w : Nat} (hw : w / 8 * 8 = w) {x : List Byte} {o : Nat} (ho : o + w / 8 ≤ x.length)
    {v : BitVec w} (h : bitsOf w v.toNat = ((bytesBits x).drop (8 * o)).take w) : v = key w x o := by
  apply BitVec.eq_of_toNat_eq
  apply bitsOf_inj (n := w) _ v.isLt (key w x o).isLt
  rw [h, key_toNat hw ho, slice, slice_bits]
  congr 1; omega

theorem load64_key (e : Endian) {x : List Byte} {o : Nat} (ho : o + 8 ≤ x.length) :
    ∃ v, load64 e x o = some v ∧ swapBe64 e v = key 64 x o := by
  obtain ⟨v, h1, h2⟩ := load64_ok e ho
  exact ⟨v, h1, eq_key (by decide) (by omega) h2⟩

theorem load32_key (e : Endian) {x : List Byte} {o : Nat} (ho : o + 4 ≤ x.length) :
    ∃ v, load32 e x o = some v ∧ swapBe32 e v = key 32 x o := by
  obtain ⟨v, h1, h2⟩ := load32_ok e ho
  exact ⟨v, h1, eq_key (by decide) (by omega) h2⟩

theorem load16_key (e : Endian) {x : List Byte} {o : Nat} (ho : o + 2 ≤ x.length) :
    ∃ v, load16 e x o = some v ∧ swapBe16 e v = key 16 x o := by
  obtain ⟨v, h1, h2⟩ := load16_ok e ho
  exact ⟨v, h1, eq_key (by decide) (by omega) h2⟩

/-! ## State correspondence -/

/-- The input side and the tables of `s`. -/
structure Core (x : List Byte) (pos : Nat) (T : Tab) (s : Comp) : Prop where
  inp : s.inp = x
  ilen : s.ilen = x.length - pos
  pos : s.pos = pos
  ht8 : s.ht8 = T.d8.ht
  ht4 : s.ht4 = T.d4.ht
  ht2 : s.ht2 = T.d2.ht
  node8 : s.node8 = T.d8.node
  node4 : s.node4 = T.d4.node
  node2 : s.node2 = T.d2.node

/-- The data fields hold the block at `pos`. -/
structure Loaded (x : List Byte) (pos : Nat) (s : Comp) : Prop where
  d8 : s.data8 0 = key 64 x pos
  d40 : s.data4 0 = key 32 x pos
  d41 : s.data4 1 = key 32 x (pos + 4)
  d20 : s.data2 0 = key 16 x pos
  d21 : s.data2 1 = key 16 x (pos + 2)
  d22 : s.data2 2 = key 16 x (pos + 4)
  d23 : s.data2 3 = key 16 x (pos + 6)

theorem getNextData_emits (e : Endian) {x : List Byte} {pos : Nat} {T : Tab} {s : Comp}
    (hc : Core x pos T s) (hpos : pos + 8 ≤ x.length) :
    ∃ s', CEmits (getNextData e) s () [] s' ∧ Core x pos T s' ∧ Loaded x pos s' := by
  obtain ⟨v8, h8, k8⟩ := load64_key e (x := x) (o := pos) (by omega)
  obtain ⟨v40, h40, k40⟩ := load32_key e (x := x) (o := pos) (by omega)
  obtain ⟨v41, h41, k41⟩ := load32_key e (x := x) (o := pos + 4) (by omega)
  obtain ⟨v20, h20, k20⟩ := load16_key e (x := x) (o := pos) (by omega)
  obtain ⟨v21, h21, k21⟩ := load16_key e (x := x) (o := pos + 2) (by omega)
  obtain ⟨v22, h22, k22⟩ := load16_key e (x := x) (o := pos + 4) (by omega)
  obtain ⟨v23, h23, k23⟩ := load16_key e (x := x) (o := pos + 6) (by omega)
  refine ⟨{ s with
      data8 := upd s.data8 0 (key 64 x pos)
      data4 := upd (upd s.data4 0 (key 32 x pos)) 1 (key 32 x (pos + 4))
      data2 := upd (upd (upd (upd s.data2 0 (key 16 x pos)) 1 (key 16 x (pos + 2)))
        2 (key 16 x (pos + 4))) 3 (key 16 x (pos + 6)) }, ?_, ?_, ?_⟩
  · unfold getNextData
    refine .get_bind fun w => ?_
    refine .access_bind (a := v8) (fun _ => by simpa [Comp.setW, hc.inp, hc.pos] using h8) ?_
    refine .access_bind (a := v40) (fun _ => by simpa [Comp.setW, hc.inp, hc.pos] using h40) ?_
    refine .access_bind (a := v41) (fun _ => by simpa [Comp.setW, hc.inp, hc.pos] using h41) ?_
    refine .access_bind (a := v20) (fun _ => by simpa [Comp.setW, hc.inp, hc.pos] using h20) ?_
    refine .access_bind (a := v21) (fun _ => by simpa [Comp.setW, hc.inp, hc.pos] using h21) ?_
    refine .access_bind (a := v22) (fun _ => by simpa [Comp.setW, hc.inp, hc.pos] using h22) ?_
    refine .access_bind (a := v23) (fun _ => by simpa [Comp.setW, hc.inp, hc.pos] using h23) ?_
    rw [k8, k40, k41, k20, k21, k22, k23]
    exact .of_pure fun w => rfl
  · exact ⟨hc.inp, hc.ilen, hc.pos, hc.ht8, hc.ht4, hc.ht2, hc.node8, hc.node4, hc.node2⟩
  · constructor <;> simp [upd]

/-! ## Index lookup -/

def look {w : Nat} (ht : BitVec w → List Nat) (v : BitVec w) : Int :=
  match ht v with
  | [] => -1
  | i :: _ => i

def sidx (s : Comp) (n b : Nat) : Int :=
  if n = 8 then s.index8 (b / 8) else if n = 4 then s.index4 (b / 4) else s.index2 (b / 2)

def slook (s : Comp) (n b : Nat) : Int :=
  if n = 8 then look s.ht8 (s.data8 (b / 8)) else if n = 4 then look s.ht4 (s.data4 (b / 4))
  else look s.ht2 (s.data2 (b / 2))

def Slot (n b : Nat) : Prop := SizeOk n ∧ b + n ≤ 8 ∧ b % n = 0

def IdxInv (s : Comp) : Prop := ∀ n b, Slot n b → sidx s n b = -2 ∨ sidx s n b = slook s n b

/-- `s'` differs from `s` only in newly resolved index entries. -/
structure Refines (s s' : Comp) : Prop where
  inp : s'.inp = s.inp
  pos : s'.pos = s.pos
  ilen : s'.ilen = s.ilen
  ht8 : s'.ht8 = s.ht8
  ht4 : s'.ht4 = s.ht4
  ht2 : s'.ht2 = s.ht2
  node8 : s'.node8 = s.node8
  node4 : s'.node4 = s.node4
  node2 : s'.node2 = s.node2
  data8 : s'.data8 = s.data8
  data4 : s'.data4 = s.data4
  data2 : s'.data2 = s.data2
  idx : ∀ n b, Slot n b → sidx s n b = slook s n b → sidx s' n b = slook s n b
  inv : IdxInv s → IdxInv s'

theorem Refines.refl (s : Comp) : Refines s s :=
  ⟨rfl, rfl, rfl, rfl, rfl, rfl, rfl, rfl, rfl, rfl, rfl, rfl, fun _ _ _ h => h, fun h => h⟩

theorem Refines.slook {s s' : Comp} (h : Refines s s') (n b : Nat) :
    Lib842.slook s' n b = Lib842.slook s n b := by
  unfold Lib842.slook
  rw [h.ht8, h.ht4, h.ht2, h.data8, h.data4, h.data2]

theorem Refines.trans {a b c : Comp} (h : Refines a b) (h' : Refines b c) : Refines a c := by
  refine ⟨h'.inp.trans h.inp, h'.pos.trans h.pos, h'.ilen.trans h.ilen, h'.ht8.trans h.ht8,
    h'.ht4.trans h.ht4, h'.ht2.trans h.ht2, h'.node8.trans h.node8, h'.node4.trans h.node4,
    h'.node2.trans h.node2, h'.data8.trans h.data8, h'.data4.trans h.data4, h'.data2.trans h.data2,
    ?_, fun hi => h'.inv (h.inv hi)⟩
  intro n o hs hr
  have := h.idx n o hs hr
  rw [← h.slook] at this ⊢
  exact h'.idx n o hs this

theorem Refines.core {x pos T s s'} (h : Refines s s') (hc : Core x pos T s) : Core x pos T s' :=
  ⟨h.inp.trans hc.inp, h.ilen.trans hc.ilen, h.pos.trans hc.pos, h.ht8.trans hc.ht8,
    h.ht4.trans hc.ht4, h.ht2.trans hc.ht2, h.node8.trans hc.node8, h.node4.trans hc.node4,
    h.node2.trans hc.node2⟩

theorem Refines.loaded {x pos s s'} (h : Refines s s') (hc : Loaded x pos s) : Loaded x pos s' := by
  obtain ⟨a, b, c, d, f, g, i⟩ := hc
  constructor <;> simp only [h.data8, h.data4, h.data2] <;> assumption

@[simp] theorem upd_same {ι α : Type} [DecidableEq ι] (f : ι → α) (i : ι) (v : α) : upd f i v i = v := by
  simp [upd]

theorem upd_upd {ι α : Type} [DecidableEq ι] (f : ι → α) (i : ι) (u v : α) :
    upd (upd f i u) i v = upd f i v := by
  funext j; unfold upd; split <;> rfl

theorem findIndex8_emits (s : Comp) (k : Nat) (hk : k < 1) :
    CEmits (findIndex8 k) s (decide (look s.ht8 (s.data8 k) ≥ 0)) []
      { s with index8 := upd s.index8 k (look s.ht8 (s.data8 k)) } := by
  unfold findIndex8
  refine .update_bind (s1 := { s with index8 := upd s.index8 k (-1) })
    (fun w => by simp [arrSet, hk, Comp.setW]) ?_
  refine .get_bind fun w => ?_
  refine .access_bind (a := s.data8 k) (fun _ => by simp [arrGet, hk, Comp.setW]) ?_
  unfold look
  have hht : (({ s with index8 := upd s.index8 k (-1) } : Comp).setW w).ht8 = s.ht8 := rfl
  rw [hht]
  cases h : s.ht8 (s.data8 k) with
  | nil =>
    refine .access_bind (a := -1) (fun _ => by simp [arrGet, hk, Comp.setW]) ?_
    exact .pure _ _
  | cons i is =>
    have : upd s.index8 k (i : Int) = upd (upd s.index8 k (-1)) k (i : Int) := by rw [upd_upd]
    simp only [this]
    refine .update_bind (s1 := { s with index8 := upd (upd s.index8 k (-1)) k (i : Int) })
      (fun w => by simp [arrSet, hk, Comp.setW]) ?_
    refine .access_bind (a := (i : Int)) (fun _ => by simp [arrGet, hk, Comp.setW]) ?_
    exact .pure _ _

theorem checkIndex8_emits (s : Comp) (hi : IdxInv s) (b : Nat) (hs : Slot 8 b) :
    ∃ s', CEmits (checkIndex8 (b / 8)) s (decide (slook s 8 b ≥ 0)) [] s' ∧ Refines s s' ∧
      sidx s' 8 b = slook s 8 b := by
  have hk : b / 8 < 1 := by obtain ⟨-, h1, h2⟩ := hs; omega
  have e1 : ∀ s, sidx s 8 b = s.index8 (b / 8) := by intro s; simp [sidx]
  have e2 : slook s 8 b = look s.ht8 (s.data8 (b / 8)) := by simp [slook]
  unfold checkIndex8
  have hi' := hi 8 b hs
  rw [e1] at hi'
  by_cases h2 : s.index8 (b / 8) = -2
  · refine ⟨{ s with index8 := upd s.index8 (b / 8) (look s.ht8 (s.data8 (b / 8))) }, ?_, ?_, ?_⟩
    · refine .access_bind (a := s.index8 (b / 8)) (fun _ => by simp [arrGet, hk, Comp.setW]) ?_
      rw [if_pos h2, e2]
      exact findIndex8_emits s _ hk
    · refine ⟨rfl, rfl, rfl, rfl, rfl, rfl, rfl, rfl, rfl, rfl, rfl, rfl, ?_, ?_⟩
      · intro n c hs' hr
        by_cases hn : n = 8
        · subst hn
          by_cases hcb : c / 8 = b / 8
          · simp [sidx, slook, hcb]
          · simp [sidx, slook, upd, hcb] at hr ⊢; exact hr
        · rw [← hr]; unfold sidx; rcases hs'.1 with rfl | rfl | rfl <;> simp at hn ⊢
      · intro _ n c hs'
        have hi'' := hi n c hs'
        by_cases hn : n = 8
        · subst hn
          by_cases hcb : c / 8 = b / 8
          · simp [sidx, slook, hcb]
          · simp [sidx, slook, upd, hcb] at hi'' ⊢; exact hi''
        · unfold sidx slook at hi'' ⊢
          rcases hs'.1 with rfl | rfl | rfl <;> simp at hn hi'' ⊢ <;> exact hi''
    · rw [e1, e2]; simp
  · have hr := hi'.resolve_left h2
    refine ⟨s, ?_, .refl s, by rw [e1]; exact hr⟩
    refine .access_bind (a := s.index8 (b / 8)) (fun _ => by simp [arrGet, hk, Comp.setW]) ?_
    rw [if_neg h2, hr]
    exact .pure _ _

theorem findIndex4_emits (s : Comp) (k : Nat) (hk : k < 2) :
    CEmits (findIndex4 k) s (decide (look s.ht4 (s.data4 k) ≥ 0)) []
      { s with index4 := upd s.index4 k (look s.ht4 (s.data4 k)) } := by
  unfold findIndex4
  refine .update_bind (s1 := { s with index4 := upd s.index4 k (-1) })
    (fun w => by simp [arrSet, hk, Comp.setW]) ?_
  refine .get_bind fun w => ?_
  refine .access_bind (a := s.data4 k) (fun _ => by simp [arrGet, hk, Comp.setW]) ?_
  unfold look
  have hht : (({ s with index4 := upd s.index4 k (-1) } : Comp).setW w).ht4 = s.ht4 := rfl
  rw [hht]
  cases h : s.ht4 (s.data4 k) with
  | nil =>
    refine .access_bind (a := -1) (fun _ => by simp [arrGet, hk, Comp.setW]) ?_
    exact .pure _ _
  | cons i is =>
    have : upd s.index4 k (i : Int) = upd (upd s.index4 k (-1)) k (i : Int) := by rw [upd_upd]
    simp only [this]
    refine .update_bind (s1 := { s with index4 := upd (upd s.index4 k (-1)) k (i : Int) })
      (fun w => by simp [arrSet, hk, Comp.setW]) ?_
    refine .access_bind (a := (i : Int)) (fun _ => by simp [arrGet, hk, Comp.setW]) ?_
    exact .pure _ _

theorem checkIndex4_emits (s : Comp) (hi : IdxInv s) (b : Nat) (hs : Slot 4 b) :
    ∃ s', CEmits (checkIndex4 (b / 4)) s (decide (slook s 4 b ≥ 0)) [] s' ∧ Refines s s' ∧
      sidx s' 4 b = slook s 4 b := by
  have hk : b / 4 < 2 := by obtain ⟨-, h1, h2⟩ := hs; omega
  have e1 : ∀ s, sidx s 4 b = s.index4 (b / 4) := by intro s; simp [sidx]
  have e2 : slook s 4 b = look s.ht4 (s.data4 (b / 4)) := by simp [slook]
  unfold checkIndex4
  have hi' := hi 4 b hs
  rw [e1] at hi'
  by_cases h2 : s.index4 (b / 4) = -2
  · refine ⟨{ s with index4 := upd s.index4 (b / 4) (look s.ht4 (s.data4 (b / 4))) }, ?_, ?_, ?_⟩
    · refine .access_bind (a := s.index4 (b / 4)) (fun _ => by simp [arrGet, hk, Comp.setW]) ?_
      rw [if_pos h2, e2]
      exact findIndex4_emits s _ hk
    · refine ⟨rfl, rfl, rfl, rfl, rfl, rfl, rfl, rfl, rfl, rfl, rfl, rfl, ?_, ?_⟩
      · intro n c hs' hr
        by_cases hn : n = 4
        · subst hn
          by_cases hcb : c / 4 = b / 4
          · simp [sidx, slook, hcb]
          · simp [sidx, slook, upd, hcb] at hr ⊢; exact hr
        · rw [← hr]; unfold sidx; rcases hs'.1 with rfl | rfl | rfl <;> simp at hn ⊢
      · intro _ n c hs'
        have hi'' := hi n c hs'
        by_cases hn : n = 4
        · subst hn
          by_cases hcb : c / 4 = b / 4
          · simp [sidx, slook, hcb]
          · simp [sidx, slook, upd, hcb] at hi'' ⊢; exact hi''
        · unfold sidx slook at hi'' ⊢
          rcases hs'.1 with rfl | rfl | rfl <;> simp at hn hi'' ⊢ <;> exact hi''
    · rw [e1, e2]; simp
  · have hr := hi'.resolve_left h2
    refine ⟨s, ?_, .refl s, by rw [e1]; exact hr⟩
    refine .access_bind (a := s.index4 (b / 4)) (fun _ => by simp [arrGet, hk, Comp.setW]) ?_
    rw [if_neg h2, hr]
    exact .pure _ _

theorem findIndex2_emits (s : Comp) (k : Nat) (hk : k < 4) :
    CEmits (findIndex2 k) s (decide (look s.ht2 (s.data2 k) ≥ 0)) []
      { s with index2 := upd s.index2 k (look s.ht2 (s.data2 k)) } := by
  unfold findIndex2
  refine .update_bind (s1 := { s with index2 := upd s.index2 k (-1) })
    (fun w => by simp [arrSet, hk, Comp.setW]) ?_
  refine .get_bind fun w => ?_
  refine .access_bind (a := s.data2 k) (fun _ => by simp [arrGet, hk, Comp.setW]) ?_
  unfold look
  have hht : (({ s with index2 := upd s.index2 k (-1) } : Comp).setW w).ht2 = s.ht2 := rfl
  rw [hht]
  cases h : s.ht2 (s.data2 k) with
  | nil =>
    refine .access_bind (a := -1) (fun _ => by simp [arrGet, hk, Comp.setW]) ?_
    exact .pure _ _
  | cons i is =>
    have : upd s.index2 k (i : Int) = upd (upd s.index2 k (-1)) k (i : Int) := by rw [upd_upd]
    simp only [this]
    refine .update_bind (s1 := { s with index2 := upd (upd s.index2 k (-1)) k (i : Int) })
      (fun w => by simp [arrSet, hk, Comp.setW]) ?_
    refine .access_bind (a := (i : Int)) (fun _ => by simp [arrGet, hk, Comp.setW]) ?_
    exact .pure _ _

theorem checkIndex2_emits (s : Comp) (hi : IdxInv s) (b : Nat) (hs : Slot 2 b) :
    ∃ s', CEmits (checkIndex2 (b / 2)) s (decide (slook s 2 b ≥ 0)) [] s' ∧ Refines s s' ∧
      sidx s' 2 b = slook s 2 b := by
  have hk : b / 2 < 4 := by obtain ⟨-, h1, h2⟩ := hs; omega
  have e1 : ∀ s, sidx s 2 b = s.index2 (b / 2) := by intro s; simp [sidx]
  have e2 : slook s 2 b = look s.ht2 (s.data2 (b / 2)) := by simp [slook]
  unfold checkIndex2
  have hi' := hi 2 b hs
  rw [e1] at hi'
  by_cases h2 : s.index2 (b / 2) = -2
  · refine ⟨{ s with index2 := upd s.index2 (b / 2) (look s.ht2 (s.data2 (b / 2))) }, ?_, ?_, ?_⟩
    · refine .access_bind (a := s.index2 (b / 2)) (fun _ => by simp [arrGet, hk, Comp.setW]) ?_
      rw [if_pos h2, e2]
      exact findIndex2_emits s _ hk
    · refine ⟨rfl, rfl, rfl, rfl, rfl, rfl, rfl, rfl, rfl, rfl, rfl, rfl, ?_, ?_⟩
      · intro n c hs' hr
        by_cases hn : n = 2
        · subst hn
          by_cases hcb : c / 2 = b / 2
          · simp [sidx, slook, hcb]
          · simp [sidx, slook, upd, hcb] at hr ⊢; exact hr
        · rw [← hr]; unfold sidx; rcases hs'.1 with rfl | rfl | rfl <;> simp at hn ⊢
      · intro _ n c hs'
        have hi'' := hi n c hs'
        by_cases hn : n = 2
        · subst hn
          by_cases hcb : c / 2 = b / 2
          · simp [sidx, slook, hcb]
          · simp [sidx, slook, upd, hcb] at hi'' ⊢; exact hi''
        · unfold sidx slook at hi'' ⊢
          rcases hs'.1 with rfl | rfl | rfl <;> simp at hn hi'' ⊢ <;> exact hi''
    · rw [e1, e2]; simp
  · have hr := hi'.resolve_left h2
    refine ⟨s, ?_, .refl s, by rw [e1]; exact hr⟩
    refine .access_bind (a := s.index2 (b / 2)) (fun _ => by simp [arrGet, hk, Comp.setW]) ?_
    rw [if_neg h2, hr]
    exact .pure _ _

/-- The index field the compressor uses is the table lookup of the reference. -/
theorem slook_find {x pos T s} (hc : Core x pos T s) (hl : Loaded x pos s) {n b : Nat} (hs : Slot n b) :
    slook s n b = match T.find x n (pos + b) with
      | some i => (i : Int)
      | none => -1 := by
  have key' : ∀ {w : Nat} (ht : BitVec w → List Nat) (v : BitVec w),
      look ht v = match (ht v).head? with
        | some i => (i : Int)
        | none => -1 := by
    intro w ht v
    unfold look
    cases ht v <;> rfl
  obtain ⟨hn, h1, h2⟩ := hs
  unfold slook Tab.find
  rcases hn with rfl | rfl | rfl
  · rw [if_neg (by decide), if_neg (by decide), if_neg (by decide), if_neg (by decide), key', hc.ht2]
    have hb : b = 0 ∨ b = 2 ∨ b = 4 ∨ b = 6 := by omega
    rcases hb with rfl | rfl | rfl | rfl
    · rw [show (0 : Nat) / 2 = 0 from rfl, hl.d20]; rfl
    · rw [show (2 : Nat) / 2 = 1 from rfl, hl.d21]
    · rw [show (4 : Nat) / 2 = 2 from rfl, hl.d22]
    · rw [show (6 : Nat) / 2 = 3 from rfl, hl.d23]
  · rw [if_neg (by decide), if_pos rfl, if_neg (by decide), if_pos rfl, key', hc.ht4]
    have hb : b = 0 ∨ b = 4 := by omega
    rcases hb with rfl | rfl
    · rw [show (0 : Nat) / 4 = 0 from rfl, hl.d40]; rfl
    · rw [show (4 : Nat) / 4 = 1 from rfl, hl.d41]
  · rw [if_pos rfl, if_pos rfl, key', hc.ht8]
    have hb : b = 0 := by omega
    subst hb
    rw [show (0 : Nat) / 8 = 0 from rfl, hl.d8]; rfl

theorem slook_nonneg {x pos T s} (hc : Core x pos T s) (hl : Loaded x pos s) {n b : Nat} (hs : Slot n b) :
    decide (slook s n b ≥ 0) = (T.find x n (pos + b)).isSome := by
  rw [slook_find hc hl hs]
  cases T.find x n (pos + b) <;> simp

/-! ## Templates -/

/-- Alignment conditions on the actions of a template row. -/
def Aligned : List Action → Nat → Prop
  | [], b => b = 8
  | .I n :: as, b => Slot n b ∧ Aligned as (b + n)
  | .D n :: as, b => SizeOk n ∧ b + n ≤ 8 ∧ b % 2 = 0 ∧ (n = 4 ∨ b % n = 0) ∧ Aligned as (b + n)

instance (n b : Nat) : Decidable (Slot n b) := by unfold Slot SizeOk; infer_instance
instance (n : Nat) : Decidable (SizeOk n) := by unfold SizeOk; infer_instance
instance instDecAligned : (as : List Action) → (b : Nat) → Decidable (Aligned as b)
  | [], b => by unfold Aligned; infer_instance
  | .I n :: as, b => by
    have := instDecAligned as (b + n)
    unfold Aligned; infer_instance
  | .D n :: as, b => by
    have := instDecAligned as (b + n)
    unfold Aligned; infer_instance

/-- All index fields used by the row are resolved. -/
def ResolvedAll (s : Comp) : List Action → Nat → Prop
  | [], _ => True
  | .I n :: as, b => sidx s n b = slook s n b ∧ ResolvedAll s as (b + n)
  | .D n :: as, b => ResolvedAll s as (b + n)

theorem ResolvedAll.mono {s s' : Comp} (h : Refines s s') {as : List Action} {b : Nat} (ha : Aligned as b)
    (hr : ResolvedAll s as b) : ResolvedAll s' as b := by
  induction as generalizing b with
  | nil => trivial
  | cons a as ih =>
    cases a with
    | I n => exact ⟨by rw [h.slook]; exact h.idx n b ha.1 hr.1, ih ha.2 hr.2⟩
    | D n => exact ih ha.2.2.2.2 hr

theorem checkActions_noop (k b : Nat) (s : Comp) :
    CEmits (checkActions (List.replicate k 0x40) b) s true [] s := by
  induction k generalizing b with
  | zero => exact .pure _ _
  | succ k ih =>
    rw [List.replicate_succ, checkActions]
    rw [if_neg (by decide)]
    exact ih _

theorem enc_facts {n : Nat} (hn : SizeOk n) :
    isIndex (encAction (.I n)) = true ∧ isIndex (encAction (.D n)) = false ∧
    isData (encAction (.D n)) = true ∧ isData (encAction (.I n)) = false ∧
    amount (encAction (.I n)) = n ∧ amount (encAction (.D n)) = n := by
  rcases hn with rfl | rfl | rfl <;> decide

theorem checkActions_emits {x pos T s} (hc : Core x pos T s) (hl : Loaded x pos s) (hi : IdxInv s)
    (k : Nat) {as : List Action} {b : Nat} (ha : Aligned as b) :
    ∃ s', CEmits (checkActions (as.map encAction ++ List.replicate k 0x40) b) s
        (T.args x as (pos + b)).isSome [] s' ∧ Refines s s' ∧
      ((T.args x as (pos + b)).isSome = true → ResolvedAll s' as b) := by
  induction as generalizing b s with
  | nil => exact ⟨s, checkActions_noop k b s, .refl s, fun _ => trivial⟩
  | cons a as ih =>
    rw [List.map_cons, List.cons_append, checkActions]
    cases a with
    | D n =>
      obtain ⟨e1, e2, e3, e4, e5, e6⟩ := enc_facts ha.1
      rw [e2, if_neg (by decide), e6]
      obtain ⟨s', h1, h2, h3⟩ := ih hc hl hi ha.2.2.2.2
      have hargs : (T.args x (.D n :: as) (pos + b)).isSome = (T.args x as (pos + (b + n))).isSome := by
        rw [Tab.args, actionSize, Nat.add_assoc]
        simp only [Tab.arg]
        cases T.args x as (pos + (b + n)) <;> rfl
      rw [hargs]
      exact ⟨s', h1, h2, h3⟩
    | I n =>
      obtain ⟨e1, e2, e3, e4, e5, e6⟩ := enc_facts ha.1.1
      rw [e1, if_pos rfl, e5]
      have hchk : ∃ s', (∀ (g : Bool → M Comp Bool) (r : Bool) (s2 : Comp),
          CEmits (g (T.find x n (pos + b)).isSome) s' r [] s2 →
          CEmits (if encAction (.I n) &&& 0x02 ≠ 0 then checkIndex2 (b >>> 1) >>= g
          else if encAction (.I n) &&& 0x04 ≠ 0 then checkIndex4 (b >>> 2) >>= g
          else if encAction (.I n) &&& 0x08 ≠ 0 then checkIndex8 0 >>= g
          else Pure.pure false >>= g) s r [] s2) ∧ Refines s s' ∧
          sidx s' n b = slook s n b := by
        rw [← slook_nonneg hc hl ha.1]
        rcases ha.1.1 with rfl | rfl | rfl
        · obtain ⟨s', h1, h2, h3⟩ := checkIndex2_emits s hi b ha.1
          refine ⟨s', fun g r s2 hg => ?_, h2, h3⟩
          rw [if_pos (by decide), Nat.shiftRight_eq_div_pow]
          exact h1.bind hg
        · obtain ⟨s', h1, h2, h3⟩ := checkIndex4_emits s hi b ha.1
          refine ⟨s', fun g r s2 hg => ?_, h2, h3⟩
          rw [if_neg (by decide), if_pos (by decide), Nat.shiftRight_eq_div_pow]
          exact h1.bind hg
        · obtain ⟨s', h1, h2, h3⟩ := checkIndex8_emits s hi b ha.1
          refine ⟨s', fun g r s2 hg => ?_, h2, h3⟩
          rw [if_neg (by decide), if_neg (by decide), if_pos (by decide)]
          have hb : b = 0 := by obtain ⟨-, h1, h2⟩ := ha.1; omega
          subst hb
          exact h1.bind hg
      obtain ⟨s1, h1, hr1, hx1⟩ := hchk
      have hc1 := hr1.core hc
      have hl1 := hr1.loaded hl
      obtain ⟨s2, h2, hr2, hx2⟩ := ih hc1 hl1 (hr1.inv hi) ha.2
      have hargs : (T.args x (.I n :: as) (pos + b)).isSome =
          ((T.find x n (pos + b)).isSome && (T.args x as (pos + (b + n))).isSome) := by
        rw [Tab.args, actionSize, Nat.add_assoc]
        simp only [Tab.arg]
        cases T.find x n (pos + b) <;> cases T.args x as (pos + (b + n)) <;> rfl
      rw [hargs]
      cases hf : (T.find x n (pos + b)).isSome with
      | false =>
        refine ⟨s1, ?_, hr1, by simp⟩
        refine h1 _ _ _ ?_
        rw [hf]
        exact .pure _ _
      | true =>
        refine ⟨s2, ?_, hr1.trans hr2, ?_⟩
        · refine h1 _ _ _ ?_
          rw [hf]
          exact h2
        · intro hx
          refine ⟨?_, hx2 (by simpa using hx)⟩
          rw [(hr1.trans hr2).slook]
          rw [← hr1.slook] at hx1
          have := hr2.idx n b ha.1 hx1
          rw [this, hr1.slook]

/-- The rows of `comp_ops` are the templates in the order `tryOrder`. -/
theorem compOps_eq : ∀ c, c < 26 → ∃ code acts row, tryOrder[c]? = some code ∧
    templates[code]? = some acts ∧ compOps[c]? = some row ∧
    row.take 4 = acts.map encAction ++ List.replicate (4 - acts.length) 0x40 ∧
    row[4]? = some code ∧ code < 32 ∧ Aligned acts 0 := by
  intro c hc
  interval_cases c <;> exact ⟨_, _, _, rfl, rfl, rfl, rfl, rfl, by decide, by decide⟩

theorem checkTemplate_emits {x pos T s} (hc : Core x pos T s) (hl : Loaded x pos s) (hi : IdxInv s)
    {c : Nat} (hlt : c < 26) {code : Nat} {acts : List Action} (ho : tryOrder[c]? = some code)
    (ht : templates[code]? = some acts) :
    ∃ s', CEmits (checkTemplate c) s (T.tryCode x pos code).isSome [] s' ∧ Refines s s' ∧
      ((T.tryCode x pos code).isSome = true → ResolvedAll s' acts 0) := by
  obtain ⟨code', acts', row, h1, h2, h3, h4, h5, h6, h7⟩ := compOps_eq c hlt
  rw [ho] at h1
  obtain rfl := Option.some.inj h1
  rw [ht] at h2
  obtain rfl := Option.some.inj h2
  have htry : (T.tryCode x pos code).isSome = (T.args x acts (pos + 0)).isSome := by
    unfold Tab.tryCode; rw [ht]; simp
  rw [htry]
  obtain ⟨s', hs, hr, hx⟩ := checkActions_emits hc hl hi (4 - acts.length) h7
  refine ⟨s', ?_, hr, hx⟩
  unfold checkTemplate
  rw [if_neg (by unfold OPS_MAX; omega)]
  refine .access_bind (a := row) (fun _ => h3) ?_
  rw [h4]
  exact hs

theorem findTemplate_emits {x pos T s} (hc : Core x pos T s) (hl : Loaded x pos s) (hi : IdxInv s)
    (k i : Nat) (hki : k + i = 25) :
    ∃ c s' code acts op, CEmits (findTemplate k i) s c [] s' ∧ Refines s s' ∧ c < 26 ∧
      tryOrder[c]? = some code ∧ templates[code]? = some acts ∧ T.tryCode x pos code = some op ∧
      (tryOrder.drop i).findSome? (T.tryCode x pos) = some op ∧ ResolvedAll s' acts 0 := by
  induction k generalizing i s with
  | zero =>
    have : i = 25 := by omega
    subst this
    refine ⟨25, s, 0, [.D 8], .template 0 [.data (slice x pos 8)], .pure _ _, .refl s, by omega, rfl, rfl,
      rfl, rfl, trivial⟩
  | succ k ih =>
    obtain ⟨code, acts, row, h1, h2, h3, h4, h5, h6, h7⟩ := compOps_eq i (by omega)
    obtain ⟨s1, hs1, hr1, hx1⟩ := checkTemplate_emits hc hl hi (by omega) h1 h2
    have hlt : i < tryOrder.length := by show i < 26; omega
    have hdrop : tryOrder.drop i = code :: tryOrder.drop (i + 1) := by
      rw [List.drop_eq_getElem_cons hlt]
      congr 1
      rw [List.getElem?_eq_getElem hlt] at h1
      exact Option.some.inj h1
    rw [hdrop, List.findSome?_cons, findTemplate]
    cases htry : T.tryCode x pos code with
    | some op =>
      rw [htry] at hs1 hx1
      refine ⟨i, s1, code, acts, op, ?_, hr1, by omega, h1, h2, htry, rfl, hx1 rfl⟩
      have := hs1.bind (g := fun m => if m then (Pure.pure i : M Comp Nat) else findTemplate k (i + 1))
        (B := []) (b := i) (s2 := s1) (by simp only [Option.isSome_some, if_true]; exact .pure _ _)
      simpa using this
    | none =>
      rw [htry] at hs1
      obtain ⟨c, s2, code', acts', op, hs2, hr2, hlt2, ho2, ht2, htry2, hfs2, hres2⟩ :=
        ih (hr1.core hc) (hr1.loaded hl) (hr1.inv hi) (i + 1) (by omega)
      refine ⟨c, s2, code', acts', op, ?_, hr1.trans hr2, hlt2, ho2, ht2, htry2, hfs2, hres2⟩
      have := hs1.bind (g := fun m => if m then (Pure.pure i : M Comp Nat) else findTemplate k (i + 1))
        (B := []) (b := c) (s2 := s2)
        (by simp only [Option.isSome_none, Bool.false_eq_true, if_false]; exact hs2)
      simpa using this

/-! ## Emitting a template -/

theorem addActions_noop (e : Endian) (k : Nat) (s : Comp) :
    CEmits (addActions e (List.replicate k 0x40) 8) s 8 [] s := by
  induction k with
  | zero => exact .pure _ _
  | succ k ih => exact ih

theorem ofInt_toNat {i k : Nat} (h : i < 2 ^ k) (hk : k ≤ 64) : (BitVec.ofInt 64 (i : Int)).toNat = i := by
  have : 2 ^ k ≤ 2 ^ 64 := Nat.pow_le_pow_right (by omega) hk
  simp only [BitVec.toNat_ofInt]
  omega

theorem addActions_I8_0 (e : Endian) (ts : List Nat) : addActions e (0x18 :: ts) 0 =
    (M.get >>= fun p => M.access (fun _ => arrGet 1 p.index8 0) >>= fun i => liftW (addBits e (BitVec.ofInt 64 i) 8) >>= fun _ => addActions e ts 8) := rfl
theorem addActions_I4_0 (e : Endian) (ts : List Nat) : addActions e (0x14 :: ts) 0 =
    (M.get >>= fun p => M.access (fun _ => arrGet 2 p.index4 0) >>= fun i => liftW (addBits e (BitVec.ofInt 64 i) 9) >>= fun _ => addActions e ts 4) := rfl
theorem addActions_I4_4 (e : Endian) (ts : List Nat) : addActions e (0x14 :: ts) 4 =
    (M.get >>= fun p => M.access (fun _ => arrGet 2 p.index4 1) >>= fun i => liftW (addBits e (BitVec.ofInt 64 i) 9) >>= fun _ => addActions e ts 8) := rfl
theorem addActions_I2_0 (e : Endian) (ts : List Nat) : addActions e (0x12 :: ts) 0 =
    (M.get >>= fun p => M.access (fun _ => arrGet 4 p.index2 0) >>= fun i => liftW (addBits e (BitVec.ofInt 64 i) 8) >>= fun _ => addActions e ts 2) := rfl
theorem addActions_I2_2 (e : Endian) (ts : List Nat) : addActions e (0x12 :: ts) 2 =
    (M.get >>= fun p => M.access (fun _ => arrGet 4 p.index2 1) >>= fun i => liftW (addBits e (BitVec.ofInt 64 i) 8) >>= fun _ => addActions e ts 4) := rfl
theorem addActions_I2_4 (e : Endian) (ts : List Nat) : addActions e (0x12 :: ts) 4 =
    (M.get >>= fun p => M.access (fun _ => arrGet 4 p.index2 2) >>= fun i => liftW (addBits e (BitVec.ofInt 64 i) 8) >>= fun _ => addActions e ts 6) := rfl
theorem addActions_I2_6 (e : Endian) (ts : List Nat) : addActions e (0x12 :: ts) 6 =
    (M.get >>= fun p => M.access (fun _ => arrGet 4 p.index2 3) >>= fun i => liftW (addBits e (BitVec.ofInt 64 i) 8) >>= fun _ => addActions e ts 8) := rfl
theorem addActions_D8_0 (e : Endian) (ts : List Nat) : addActions e (0x28 :: ts) 0 =
    (M.get >>= fun p => M.access (fun _ => arrGet 1 p.data8 0) >>= fun d => liftW (addBits e d 64) >>= fun _ => addActions e ts 8) := rfl
theorem addActions_D4_0 (e : Endian) (ts : List Nat) : addActions e (0x24 :: ts) 0 =
    (M.get >>= fun p => M.access (fun _ => arrGet 2 p.data4 0) >>= fun d => liftW (addBits e (d.setWidth 64) 32) >>= fun _ => addActions e ts 4) := rfl
theorem addActions_D4_2 (e : Endian) (ts : List Nat) : addActions e (0x24 :: ts) 2 =
    (M.get >>= fun p => M.access (fun _ => load32 e p.inp (p.pos + 2)) >>= fun d => liftW (addBits e ((swapBe32 e d).setWidth 64) 32) >>= fun _ => addActions e ts 6) := rfl
theorem addActions_D4_4 (e : Endian) (ts : List Nat) : addActions e (0x24 :: ts) 4 =
    (M.get >>= fun p => M.access (fun _ => arrGet 2 p.data4 1) >>= fun d => liftW (addBits e (d.setWidth 64) 32) >>= fun _ => addActions e ts 8) := rfl
theorem addActions_D2_0 (e : Endian) (ts : List Nat) : addActions e (0x22 :: ts) 0 =
    (M.get >>= fun p => M.access (fun _ => arrGet 4 p.data2 0) >>= fun d => liftW (addBits e (d.setWidth 64) 16) >>= fun _ => addActions e ts 2) := rfl
theorem addActions_D2_2 (e : Endian) (ts : List Nat) : addActions e (0x22 :: ts) 2 =
    (M.get >>= fun p => M.access (fun _ => arrGet 4 p.data2 1) >>= fun d => liftW (addBits e (d.setWidth 64) 16) >>= fun _ => addActions e ts 4) := rfl
theorem addActions_D2_4 (e : Endian) (ts : List Nat) : addActions e (0x22 :: ts) 4 =
    (M.get >>= fun p => M.access (fun _ => arrGet 4 p.data2 2) >>= fun d => liftW (addBits e (d.setWidth 64) 16) >>= fun _ => addActions e ts 6) := rfl
theorem addActions_D2_6 (e : Endian) (ts : List Nat) : addActions e (0x22 :: ts) 6 =
    (M.get >>= fun p => M.access (fun _ => arrGet 4 p.data2 3) >>= fun d => liftW (addBits e (d.setWidth 64) 16) >>= fun _ => addActions e ts 8) := rfl

theorem key_bits {w : Nat} {x : List Byte} {o : Nat} (hw : w / 8 * 8 = w) (hw64 : w ≤ 64)
    (ho : o + w / 8 ≤ x.length) :
    ((key w x o).setWidth 64).toNat < 2 ^ w ∧
      bitsOf w ((key w x o).setWidth 64).toNat = bytesBits (slice x o (w / 8)) := by
  have h : ((key w x o).setWidth 64).toNat = (key w x o).toNat := by
    rw [BitVec.toNat_setWidth, Nat.mod_eq_of_lt]
    exact Nat.lt_of_lt_of_le (key w x o).isLt (Nat.pow_le_pow_right (by omega) hw64)
  rw [h]
  exact ⟨(key w x o).isLt, key_toNat hw ho⟩

/-- One index action. -/
theorem addIndex_step (e : Endian) {s : Comp} {n b i : Nat} (hs : Slot n b)
    (hx : sidx s n b = (i : Int)) (hi : i < 2 ^ indexBits n) {ts : List Nat} {r : Nat} {R : List Bool} {s2 : Comp}
    (h : CEmits (addActions e ts (b + n)) s r R s2) :
    CEmits (addActions e (encAction (.I n) :: ts) b) s r (bitsOf (indexBits n) i ++ R) s2 := by
  obtain ⟨hn, h1, h2⟩ := hs
  rcases hn with rfl | rfl | rfl
  · have hb : b = 0 ∨ b = 2 ∨ b = 4 ∨ b = 6 := by omega
    have hi' : i < 2 ^ 8 := hi
    rcases hb with rfl | rfl | rfl | rfl
    · rw [show encAction (.I 2) = 0x12 from rfl, addActions_I2_0]
      refine .get_bind fun w => ?_
      have hx' : s.index2 0 = (i : Int) := hx
      refine .access_bind (a := (i : Int)) (fun _ => by simp [arrGet, Comp.setW, hx']) ?_
      exact .addBits_bind e (by omega) (by omega) (by rw [ofInt_toNat hi' (by omega)]; exact hi')
        (by rw [ofInt_toNat hi' (by omega)]; rfl) h
    · rw [show encAction (.I 2) = 0x12 from rfl, addActions_I2_2]
      refine .get_bind fun w => ?_
      have hx' : s.index2 1 = (i : Int) := hx
      refine .access_bind (a := (i : Int)) (fun _ => by simp [arrGet, Comp.setW, hx']) ?_
      exact .addBits_bind e (by omega) (by omega) (by rw [ofInt_toNat hi' (by omega)]; exact hi')
        (by rw [ofInt_toNat hi' (by omega)]; rfl) h
    · rw [show encAction (.I 2) = 0x12 from rfl, addActions_I2_4]
      refine .get_bind fun w => ?_
      have hx' : s.index2 2 = (i : Int) := hx
      refine .access_bind (a := (i : Int)) (fun _ => by simp [arrGet, Comp.setW, hx']) ?_
      exact .addBits_bind e (by omega) (by omega) (by rw [ofInt_toNat hi' (by omega)]; exact hi')
        (by rw [ofInt_toNat hi' (by omega)]; rfl) h
    · rw [show encAction (.I 2) = 0x12 from rfl, addActions_I2_6]
      refine .get_bind fun w => ?_
      have hx' : s.index2 3 = (i : Int) := hx
      refine .access_bind (a := (i : Int)) (fun _ => by simp [arrGet, Comp.setW, hx']) ?_
      exact .addBits_bind e (by omega) (by omega) (by rw [ofInt_toNat hi' (by omega)]; exact hi')
        (by rw [ofInt_toNat hi' (by omega)]; rfl) h
  · have hb : b = 0 ∨ b = 4 := by omega
    have hi' : i < 2 ^ 9 := hi
    rcases hb with rfl | rfl
    · rw [show encAction (.I 4) = 0x14 from rfl, addActions_I4_0]
      refine .get_bind fun w => ?_
      have hx' : s.index4 0 = (i : Int) := hx
      refine .access_bind (a := (i : Int)) (fun _ => by simp [arrGet, Comp.setW, hx']) ?_
      exact .addBits_bind e (by omega) (by omega) (by rw [ofInt_toNat hi' (by omega)]; exact hi')
        (by rw [ofInt_toNat hi' (by omega)]; rfl) h
    · rw [show encAction (.I 4) = 0x14 from rfl, addActions_I4_4]
      refine .get_bind fun w => ?_
      have hx' : s.index4 1 = (i : Int) := hx
      refine .access_bind (a := (i : Int)) (fun _ => by simp [arrGet, Comp.setW, hx']) ?_
      exact .addBits_bind e (by omega) (by omega) (by rw [ofInt_toNat hi' (by omega)]; exact hi')
        (by rw [ofInt_toNat hi' (by omega)]; rfl) h
  · have hb : b = 0 := by omega
    have hi' : i < 2 ^ 8 := hi
    subst hb
    · rw [show encAction (.I 8) = 0x18 from rfl, addActions_I8_0]
      refine .get_bind fun w => ?_
      have hx' : s.index8 0 = (i : Int) := hx
      refine .access_bind (a := (i : Int)) (fun _ => by simp [arrGet, Comp.setW, hx']) ?_
      exact .addBits_bind e (by omega) (by omega) (by rw [ofInt_toNat hi' (by omega)]; exact hi')
        (by rw [ofInt_toNat hi' (by omega)]; rfl) h

/-- One data action. -/
theorem addData_step (e : Endian) {x pos T} {s : Comp} (hc : Core x pos T s) (hl : Loaded x pos s)
    (hpos : pos + 8 ≤ x.length) {n b : Nat} (hn : SizeOk n) (h1 : b + n ≤ 8) (h2 : b % 2 = 0)
    (h3 : n = 4 ∨ b % n = 0) {ts : List Nat} {r : Nat} {R : List Bool} {s2 : Comp}
    (h : CEmits (addActions e ts (b + n)) s r R s2) :
    CEmits (addActions e (encAction (.D n) :: ts) b) s r (bytesBits (slice x (pos + b) n) ++ R) s2 := by
  rcases hn with rfl | rfl | rfl
  · have hb : b = 0 ∨ b = 2 ∨ b = 4 ∨ b = 6 := by omega
    rcases hb with rfl | rfl | rfl | rfl
    · rw [show encAction (.D 2) = 0x22 from rfl, addActions_D2_0]
      refine .get_bind fun w => ?_
      refine .access_bind (a := key 16 x pos) (fun _ => by simp [arrGet, Comp.setW, hl.d20]) ?_
      obtain ⟨k1, k2⟩ := key_bits (w := 16) (x := x) (o := pos + 0) (by decide) (by decide) (by omega)
      exact .addBits_bind e (by omega) (by omega) k1 k2 h
    · rw [show encAction (.D 2) = 0x22 from rfl, addActions_D2_2]
      refine .get_bind fun w => ?_
      refine .access_bind (a := key 16 x (pos + 2)) (fun _ => by simp [arrGet, Comp.setW, hl.d21]) ?_
      obtain ⟨k1, k2⟩ := key_bits (w := 16) (x := x) (o := pos + 2) (by decide) (by decide) (by omega)
      exact .addBits_bind e (by omega) (by omega) k1 k2 h
    · rw [show encAction (.D 2) = 0x22 from rfl, addActions_D2_4]
      refine .get_bind fun w => ?_
      refine .access_bind (a := key 16 x (pos + 4)) (fun _ => by simp [arrGet, Comp.setW, hl.d22]) ?_
      obtain ⟨k1, k2⟩ := key_bits (w := 16) (x := x) (o := pos + 4) (by decide) (by decide) (by omega)
      exact .addBits_bind e (by omega) (by omega) k1 k2 h
    · rw [show encAction (.D 2) = 0x22 from rfl, addActions_D2_6]
      refine .get_bind fun w => ?_
      refine .access_bind (a := key 16 x (pos + 6)) (fun _ => by simp [arrGet, Comp.setW, hl.d23]) ?_
      obtain ⟨k1, k2⟩ := key_bits (w := 16) (x := x) (o := pos + 6) (by decide) (by decide) (by omega)
      exact .addBits_bind e (by omega) (by omega) k1 k2 h
  · have hb : b = 0 ∨ b = 2 ∨ b = 4 := by omega
    rcases hb with rfl | rfl | rfl
    · rw [show encAction (.D 4) = 0x24 from rfl, addActions_D4_0]
      refine .get_bind fun w => ?_
      refine .access_bind (a := key 32 x pos) (fun _ => by simp [arrGet, Comp.setW, hl.d40]) ?_
      obtain ⟨k1, k2⟩ := key_bits (w := 32) (x := x) (o := pos + 0) (by decide) (by decide) (by omega)
      exact .addBits_bind e (by omega) (by omega) k1 k2 h
    · rw [show encAction (.D 4) = 0x24 from rfl, addActions_D4_2]
      obtain ⟨v, hv, hk⟩ := load32_key e (x := x) (o := pos + 2) (by omega)
      refine .get_bind fun w => ?_
      refine .access_bind (a := v) (fun _ => by simpa [Comp.setW, hc.inp, hc.pos] using hv) ?_
      rw [hk]
      obtain ⟨k1, k2⟩ := key_bits (w := 32) (x := x) (o := pos + 2) (by decide) (by decide) (by omega)
      exact .addBits_bind e (by omega) (by omega) k1 k2 h
    · rw [show encAction (.D 4) = 0x24 from rfl, addActions_D4_4]
      refine .get_bind fun w => ?_
      refine .access_bind (a := key 32 x (pos + 4)) (fun _ => by simp [arrGet, Comp.setW, hl.d41]) ?_
      obtain ⟨k1, k2⟩ := key_bits (w := 32) (x := x) (o := pos + 4) (by decide) (by decide) (by omega)
      exact .addBits_bind e (by omega) (by omega) k1 k2 h
  · have hb : b = 0 := by omega
    subst hb
    · rw [show encAction (.D 8) = 0x28 from rfl, addActions_D8_0]
      refine .get_bind fun w => ?_
      refine .access_bind (a := key 64 x pos) (fun _ => by simp [arrGet, Comp.setW, hl.d8]) ?_
      obtain ⟨k1, k2⟩ := key_bits (w := 64) (x := x) (o := pos + 0) (by decide) (by decide) (by omega)
      rw [BitVec.setWidth_eq] at k1 k2
      exact .addBits_bind e (by omega) (by omega) k1 k2 h

theorem addActions_emits (e : Endian) {x pos T} {s : Comp} (hT : T.Rep x pos) (h8 : pos % 8 = 0)
    (hc : Core x pos T s) (hl : Loaded x pos s) (hpos : pos + 8 ≤ x.length) (k : Nat)
    {as : List Action} {b : Nat} (ha : Aligned as b) (hr : ResolvedAll s as b) {args : List Arg}
    (hargs : T.args x as (pos + b) = some args) :
    CEmits (addActions e (as.map encAction ++ List.replicate k 0x40) b) s 8 (args.flatMap Arg.bits) s := by
  induction as generalizing b args with
  | nil =>
    obtain rfl : b = 8 := ha
    simp only [Tab.args, Option.some.injEq] at hargs
    subst hargs
    exact addActions_noop e k s
  | cons a as ih =>
    rw [List.map_cons, List.cons_append]
    rw [Tab.args] at hargs
    cases a with
    | D n =>
      simp only [Tab.arg, actionSize, Nat.add_assoc] at hargs
      cases hgs : T.args x as (pos + (b + n)) with
      | none => rw [hgs] at hargs; cases hargs
      | some gs =>
        rw [hgs] at hargs
        simp only [Option.some.injEq] at hargs
        subst hargs
        obtain ⟨a1, a2, a3, a4, a5⟩ := ha
        exact addData_step e hc hl hpos a1 a2 a3 a4 (ih a5 hr hgs)
    | I n =>
      simp only [Tab.arg, actionSize, Nat.add_assoc] at hargs
      cases hf : T.find x n (pos + b) with
      | none => rw [hf] at hargs; cases hargs
      | some i =>
        cases hgs : T.args x as (pos + (b + n)) with
        | none => rw [hf, hgs] at hargs; cases hargs
        | some gs =>
          rw [hf, hgs] at hargs
          simp only [Option.map_some, Option.some.injEq] at hargs
          subst hargs
          obtain ⟨a1, a2⟩ := ha
          have hx : sidx s n b = (i : Int) := by
            rw [hr.1, slook_find hc hl a1, hf]
          have hi := (hT.find h8 (by omega) a1.1 (by have := a1.2.1; omega) hf).1
          exact addIndex_step e a1 hx hi (ih a2 hr.2 hgs)

/-- `process_next` appends the op of the reference. -/
theorem processNext_emits (e : Endian) {x pos T} {s : Comp} (hT : T.Rep x pos) (h8 : pos % 8 = 0)
    (hc : Core x pos T s) (hl : Loaded x pos s) (hpos : pos + 8 ≤ x.length) :
    ∃ s', CEmits (processNext e) s () (T.blockOp x pos).bits s' ∧ Core x pos T s' ∧ Loaded x pos s' := by
  let s1 : Comp := { s with
      index8 := upd s.index8 0 (-2)
      index4 := upd (upd s.index4 0 (-2)) 1 (-2)
      index2 := upd (upd (upd (upd s.index2 0 (-2)) 1 (-2)) 2 (-2)) 3 (-2) }
  have hc1 : Core x pos T s1 := ⟨hc.inp, hc.ilen, hc.pos, hc.ht8, hc.ht4, hc.ht2, hc.node8, hc.node4, hc.node2⟩
  have hl1 : Loaded x pos s1 := ⟨hl.d8, hl.d40, hl.d41, hl.d20, hl.d21, hl.d22, hl.d23⟩
  have hi1 : IdxInv s1 := by
    rintro n b ⟨hn, h1, h2⟩
    left
    rcases hn with rfl | rfl | rfl
    · have hb : b = 0 ∨ b = 2 ∨ b = 4 ∨ b = 6 := by omega
      rcases hb with rfl | rfl | rfl | rfl <;> rfl
    · have hb : b = 0 ∨ b = 4 := by omega
      rcases hb with rfl | rfl <;> rfl
    · have hb : b = 0 := by omega
      subst hb; rfl
  obtain ⟨c, s2, code, acts, op, hs2, hr2, hlt, ho, ht, htry, hfs, hres⟩ :=
    findTemplate_emits hc1 hl1 hi1 25 0 rfl
  have hop : T.blockOp x pos = op := by
    unfold Tab.blockOp
    rw [List.drop_zero] at hfs
    rw [hfs]; rfl
  rw [hop]
  refine ⟨s2, ?_, hr2.core hc1, hr2.loaded hl1⟩
  unfold processNext
  refine .modify_bind (s1 := s1) (fun _ => rfl) ?_
  rw [show op.bits = [] ++ op.bits from rfl]
  refine hs2.bind ?_
  obtain ⟨code', acts', row, q1, q2, q3, q4, q5, q6, q7⟩ := compOps_eq c hlt
  rw [ho] at q1
  obtain rfl := Option.some.inj q1
  rw [ht] at q2
  obtain rfl := Option.some.inj q2
  unfold Tab.tryCode at htry
  rw [ht] at htry
  simp only [Option.map_eq_some_iff] at htry
  obtain ⟨args, hargs, rfl⟩ := htry
  unfold addTemplate
  rw [if_neg (by unfold OPS_MAX; omega)]
  refine .access_bind (a := row) (fun _ => q3) ?_
  refine .access_bind (a := code) (fun _ => q5) ?_
  have hcode : (BitVec.ofNat 64 code).toNat = code := by
    rw [BitVec.toNat_ofNat]; omega
  rw [Op.bits]
  refine .addBits_bind e (by omega) (by omega) (by rw [hcode]; exact q6) (by rw [hcode]) ?_
  rw [q4, ← List.append_nil (args.flatMap Arg.bits)]
  refine (addActions_emits e hT h8 (hr2.core hc1) (hr2.loaded hl1) hpos _ q7 hres hargs).bind ?_
  rw [if_neg (by decide)]
  exact .pure _ _

/-! ## Updating the dictionaries -/

theorem replaceHash8_emits (s : Comp) (i d : Nat) (hj : i + d < 256) (hd : d < 1) :
    CEmits (replaceHash8 i d) s () []
      { s with ht8 := ((Dict.mk s.ht8 s.node8).put (i + d) (s.data8 d)).ht,
                node8 := ((Dict.mk s.ht8 s.node8).put (i + d) (s.data8 d)).node } := by
  unfold replaceHash8
  refine .get_bind fun w => ?_
  refine .access_bind (a := s.node8 (i + d)) (fun _ => by simp [arrGet, hj, Comp.setW]) ?_
  refine .modify_bind (s1 := { s with ht8 := upd s.ht8 (s.node8 (i + d)) ((s.ht8 (s.node8 (i + d))).erase (i + d)) })
    (fun _ => rfl) ?_
  refine .access_bind (a := s.data8 d) (fun _ => by simp [arrGet, hd, Comp.setW]) ?_
  refine .update_bind (s1 := { s with
      ht8 := upd s.ht8 (s.node8 (i + d)) ((s.ht8 (s.node8 (i + d))).erase (i + d))
      node8 := upd s.node8 (i + d) (s.data8 d) })
    (fun _ => by simp [arrSet, hj, Comp.setW]) ?_
  have hm : (i + d) % 2 ^ 8 = i + d := Nat.mod_eq_of_lt (by omega)
  exact .of_pure fun w => by rw [hm]; rfl

theorem replaceHash4_emits (s : Comp) (i d : Nat) (hj : i + d < 512) (hd : d < 2) :
    CEmits (replaceHash4 i d) s () []
      { s with ht4 := ((Dict.mk s.ht4 s.node4).put (i + d) (s.data4 d)).ht,
                node4 := ((Dict.mk s.ht4 s.node4).put (i + d) (s.data4 d)).node } := by
  unfold replaceHash4
  refine .get_bind fun w => ?_
  refine .access_bind (a := s.node4 (i + d)) (fun _ => by simp [arrGet, hj, Comp.setW]) ?_
  refine .modify_bind (s1 := { s with ht4 := upd s.ht4 (s.node4 (i + d)) ((s.ht4 (s.node4 (i + d))).erase (i + d)) })
    (fun _ => rfl) ?_
  refine .access_bind (a := s.data4 d) (fun _ => by simp [arrGet, hd, Comp.setW]) ?_
  refine .update_bind (s1 := { s with
      ht4 := upd s.ht4 (s.node4 (i + d)) ((s.ht4 (s.node4 (i + d))).erase (i + d))
      node4 := upd s.node4 (i + d) (s.data4 d) })
    (fun _ => by simp [arrSet, hj, Comp.setW]) ?_
  have hm : (i + d) % 2 ^ 16 = i + d := Nat.mod_eq_of_lt (by omega)
  exact .of_pure fun w => by rw [hm]; rfl

theorem replaceHash2_emits (s : Comp) (i d : Nat) (hj : i + d < 256) (hd : d < 4) :
    CEmits (replaceHash2 i d) s () []
      { s with ht2 := ((Dict.mk s.ht2 s.node2).put (i + d) (s.data2 d)).ht,
                node2 := ((Dict.mk s.ht2 s.node2).put (i + d) (s.data2 d)).node } := by
  unfold replaceHash2
  refine .get_bind fun w => ?_
  refine .access_bind (a := s.node2 (i + d)) (fun _ => by simp [arrGet, hj, Comp.setW]) ?_
  refine .modify_bind (s1 := { s with ht2 := upd s.ht2 (s.node2 (i + d)) ((s.ht2 (s.node2 (i + d))).erase (i + d)) })
    (fun _ => rfl) ?_
  refine .access_bind (a := s.data2 d) (fun _ => by simp [arrGet, hd, Comp.setW]) ?_
  refine .update_bind (s1 := { s with
      ht2 := upd s.ht2 (s.node2 (i + d)) ((s.ht2 (s.node2 (i + d))).erase (i + d))
      node2 := upd s.node2 (i + d) (s.data2 d) })
    (fun _ => by simp [arrSet, hj, Comp.setW]) ?_
  have hm : (i + d) % 2 ^ 8 = i + d := Nat.mod_eq_of_lt (by omega)
  exact .of_pure fun w => by rw [hm]; rfl

theorem replaceHash8_core {x pos T} {s : Comp} (hc : Core x pos T s) (hl : Loaded x pos s) (i d : Nat)
    (hj : i + d < 256) (hd : d < 1) {v : BitVec 64} (hv : s.data8 d = v) :
    ∃ s', CEmits (replaceHash8 i d) s () [] s' ∧ Core x pos { T with d8 := T.d8.put (i + d) v } s' ∧
      Loaded x pos s' := by
  refine ⟨_, replaceHash8_emits s i d hj hd, ?_, ⟨hl.d8, hl.d40, hl.d41, hl.d20, hl.d21, hl.d22, hl.d23⟩⟩
  have hD : Dict.mk s.ht8 s.node8 = T.d8 := by rw [hc.ht8, hc.node8]
  subst hv
  constructor <;> simp only [hD, hc.inp, hc.ilen, hc.pos, hc.ht4, hc.ht2, hc.node4, hc.node2]

theorem replaceHash4_core {x pos T} {s : Comp} (hc : Core x pos T s) (hl : Loaded x pos s) (i d : Nat)
    (hj : i + d < 512) (hd : d < 2) {v : BitVec 32} (hv : s.data4 d = v) :
    ∃ s', CEmits (replaceHash4 i d) s () [] s' ∧ Core x pos { T with d4 := T.d4.put (i + d) v } s' ∧
      Loaded x pos s' := by
  refine ⟨_, replaceHash4_emits s i d hj hd, ?_, ⟨hl.d8, hl.d40, hl.d41, hl.d20, hl.d21, hl.d22, hl.d23⟩⟩
  have hD : Dict.mk s.ht4 s.node4 = T.d4 := by rw [hc.ht4, hc.node4]
  subst hv
  constructor <;> simp only [hD, hc.inp, hc.ilen, hc.pos, hc.ht8, hc.ht2, hc.node8, hc.node2]

theorem replaceHash2_core {x pos T} {s : Comp} (hc : Core x pos T s) (hl : Loaded x pos s) (i d : Nat)
    (hj : i + d < 256) (hd : d < 4) {v : BitVec 16} (hv : s.data2 d = v) :
    ∃ s', CEmits (replaceHash2 i d) s () [] s' ∧ Core x pos { T with d2 := T.d2.put (i + d) v } s' ∧
      Loaded x pos s' := by
  refine ⟨_, replaceHash2_emits s i d hj hd, ?_, ⟨hl.d8, hl.d40, hl.d41, hl.d20, hl.d21, hl.d22, hl.d23⟩⟩
  have hD : Dict.mk s.ht2 s.node2 = T.d2 := by rw [hc.ht2, hc.node2]
  subst hv
  constructor <;> simp only [hD, hc.inp, hc.ilen, hc.pos, hc.ht8, hc.ht4, hc.node8, hc.node4]

theorem updateHashtables_emits {x pos T} {s : Comp} (h8 : pos % 8 = 0)
    (hc : Core x pos T s) (hl : Loaded x pos s) :
    ∃ s', CEmits updateHashtables s () [] s' ∧ Core x pos (T.next x pos) s' := by
  have e8 : (pos >>> 3) % 2 ^ 8 = pos / 8 % 256 := by rw [Nat.shiftRight_eq_div_pow]; rfl
  have e4 : (pos >>> 2) % 2 ^ 9 = pos / 4 % 512 := by rw [Nat.shiftRight_eq_div_pow]; rfl
  have e2 : (pos >>> 1) % 2 ^ 8 = pos / 2 % 256 := by rw [Nat.shiftRight_eq_div_pow]; rfl
  obtain ⟨s1, h1, c1, l1⟩ := replaceHash8_core hc hl (pos / 8 % 256) 0 (by omega) (by omega) hl.d8
  obtain ⟨s2, h2, c2, l2⟩ := replaceHash4_core c1 l1 (pos / 4 % 512) 0 (by omega) (by omega) l1.d40
  obtain ⟨s3, h3, c3, l3⟩ := replaceHash4_core c2 l2 (pos / 4 % 512) 1 (by omega) (by omega) l2.d41
  obtain ⟨s4, h4, c4, l4⟩ := replaceHash2_core c3 l3 (pos / 2 % 256) 0 (by omega) (by omega) l3.d20
  obtain ⟨s5, h5, c5, l5⟩ := replaceHash2_core c4 l4 (pos / 2 % 256) 1 (by omega) (by omega) l4.d21
  obtain ⟨s6, h6, c6, l6⟩ := replaceHash2_core c5 l5 (pos / 2 % 256) 2 (by omega) (by omega) l5.d22
  obtain ⟨s7, h7, c7, l7⟩ := replaceHash2_core c6 l6 (pos / 2 % 256) 3 (by omega) (by omega) l6.d23
  refine ⟨s7, ?_, c7⟩
  unfold updateHashtables
  refine .get_bind fun w => ?_
  simp only [Comp.setW, hc.pos, e8, e4, e2]
  exact h1.bind (h2.bind (h3.bind (h4.bind (h5.bind (h6.bind h7)))))

/-! ## Repeat, zeros, main loop -/

theorem liftW_bind {α β : Type} (f : M Writer α) (g : α → M Writer β) :
    liftW (f >>= g) = (liftW f >>= fun a => liftW (g a)) := by
  funext p
  simp only [liftW, M.bind_def]
  cases f p.w <;> rfl

theorem addRepeat_eq (e : Endian) {r : Nat} (h1 : 1 ≤ r) (h2 : r ≤ 64) :
    ∃ f, addRepeat e r = liftW f ∧ Emits f (Op.rep (r - 1)).bits := by
  refine ⟨addBits e 0x1B#64 5 >>= fun _ => addBits e (BitVec.ofNat 64 (r - 1)) 6, ?_, ?_⟩
  · unfold addRepeat
    rw [if_neg (by omega), liftW_bind]
  · have h : (BitVec.ofNat 64 (r - 1)).toNat = r - 1 := by rw [BitVec.toNat_ofNat]; omega
    have hb := addBits_emits e (BitVec.ofNat 64 (r - 1)) 6 (by omega) (by omega) (by rw [h]; omega)
    rw [h] at hb
    exact (addBits_emits e 0x1B#64 5 (by omega) (by omega) (by decide)).bind hb

theorem LEmits.ignore_lift {f : M Writer Unit} {B : List Bool} (h : Emits f B) (hB : B.length ≤ 11) (s : Comp) :
    LEmits (M.ignore (liftW f)) s () B s := by
  constructor
  · intro w hw hfit
    obtain ⟨w', h1, hrest⟩ := h.ok w hw hfit
    exact ⟨w', by simp [M.ignore, liftW, Comp.setW, h1], hrest⟩
  · intro w hw hfull
    obtain ⟨w', h1, h2, h3, h4⟩ := h.full w hw hfull
    exact .inr ⟨w', by simp [M.ignore, liftW, Comp.setW, h1], h2, h3, h4, by omega⟩

theorem addZeros_emits (e : Endian) (s : Comp) :
    CEmits (liftW (addBits e 0x1C#64 5)) s () Op.zeros.bits s :=
  .addBits_last e (by omega) (by omega) (by decide) rfl

theorem key_zero {x : List Byte} {o : Nat} (ho : o + 8 ≤ x.length) :
    key 64 x o = 0#64 ↔ slice x o 8 = List.replicate 8 0#8 := by
  have h := key_toNat (w := 64) (x := x) (o := o) (by decide) ho
  have hz : bitsOf 64 0 = bytesBits (List.replicate 8 0#8) := by decide
  constructor
  · intro hk
    rw [hk] at h
    apply bytesBits_inj
    rw [← hz]; exact h.symm
  · intro hk
    apply BitVec.eq_of_toNat_eq
    apply bitsOf_inj (n := 64) _ (key 64 x o).isLt (by decide)
    rw [h, hk]; exact hz.symm

/-- The block op: zeros or template. -/
theorem block_emits (e : Endian) {x pos T} {s : Comp} (hT : T.Rep x pos) (h8 : pos % 8 = 0)
    (hc : Core x pos T s) (hl : Loaded x pos s) (hpos : pos + 8 ≤ x.length) {v : BitVec 64}
    (hv : v = 0#64 ↔ slice x pos 8 = List.replicate 8 0#8) :
    ∃ s', CEmits (if v = 0#64 then liftW (addBits e 0x1C#64 5) else processNext e) s ()
      (if slice x pos 8 = List.replicate 8 0#8 then Op.zeros else T.blockOp x pos).bits s' ∧
      Core x pos T s' ∧ Loaded x pos s' := by
  by_cases h : v = 0#64
  · rw [if_pos h, if_pos (hv.1 h)]
    exact ⟨s, addZeros_emits e s, hc, hl⟩
  · rw [if_neg h, if_neg (fun hh => h (hv.2 hh))]
    exact processNext_emits e hT h8 hc hl hpos

theorem ite_bind {α β : Type} (c : Prop) [Decidable c] (f g : M Comp α) (k : α → M Comp β) :
    (if c then f >>= k else g >>= k) = (if c then f else g) >>= k := by
  split <;> rfl

theorem compStep_emits (e : Endian) {x pos T} {s : Comp} (hT : T.Rep x pos) (h8 : pos % 8 = 0)
    (hc : Core x pos T s) (hl : Loaded x pos s) (hpos : pos + 8 ≤ x.length) {v last : BitVec 64}
    {lastO : Option (List Byte)} (hv : v = 0#64 ↔ slice x pos 8 = List.replicate 8 0#8)
    (hlast : v = last ↔ some (slice x pos 8) = lastO) {rc : Nat} (hrc : rc ≤ 63) :
    ∃ s', LEmits (compStep e v last rc) s (refStep T x pos lastO rc).2
        ((refStep T x pos lastO rc).1.flatMap Op.bits) s' ∧
      Core x pos T s' ∧ Loaded x pos s' ∧ (refStep T x pos lastO rc).2 ≤ 63 := by
  unfold compStep refStep
  simp only
  by_cases heq : v = last
  · have heq' := hlast.1 heq
    rw [if_pos heq, if_pos heq', Nat.mod_eq_of_lt (by omega)]
    by_cases hle : rc + 1 ≤ 0x3f
    · rw [if_pos ⟨heq, hle⟩, if_pos hle]
      exact ⟨s, (CEmits.pure s (rc + 1)).toL, hc, hl, hle⟩
    · rw [if_neg (fun h => hle h.2), if_pos (by omega), if_neg hle]
      obtain ⟨f, hf, hem⟩ := addRepeat_eq e (r := rc + 1) (by omega) (by omega)
      rw [hf]
      refine ⟨s, ?_, hc, hl, Nat.zero_le _⟩
      rw [if_pos heq]
      simp only [List.flatMap_cons, List.flatMap_nil]
      exact (LEmits.ignore_lift hem (by simp [Op.bits]) s).bind (CEmits.pure s 0).toL
  · have heq' : ¬ some (slice x pos 8) = lastO := fun h => heq (hlast.2 h)
    rw [if_neg heq, if_neg heq', if_neg (fun h => heq h.1)]
    obtain ⟨s', hem, hc', hl'⟩ := block_emits e hT h8 hc hl hpos hv
    refine ⟨s', ?_, hc', hl', Nat.zero_le _⟩
    simp only [List.flatMap_append, List.flatMap_cons, List.flatMap_nil]
    by_cases h0 : rc = 0
    · rw [if_neg (by omega), ite_bind, repOps, if_pos h0, h0]
      exact hem.toL.bind (CEmits.pure s' 0).toL
    · rw [if_pos h0, if_neg heq, ite_bind, repOps, if_neg h0]
      obtain ⟨f, hf, hem'⟩ := addRepeat_eq e (r := rc) (by omega) (by omega)
      rw [hf, List.flatMap_cons, List.flatMap_nil, List.append_nil]
      exact (LEmits.ignore_lift hem' (by simp [Op.bits]) s).bind (hem.toL.bind (CEmits.pure s' 0).toL)

theorem load64_raw (e : Endian) {x : List Byte} {a b : Nat} (ha : a + 8 ≤ x.length) (hb : b + 8 ≤ x.length)
    {u v : BitVec 64} (hu : load64 e x a = some u) (hv : load64 e x b = some v) :
    u = v ↔ slice x a 8 = slice x b 8 := by
  obtain ⟨u', hu', ku⟩ := load64_key e ha
  obtain ⟨v', hv', kv⟩ := load64_key e hb
  rw [hu] at hu'
  obtain rfl := Option.some.inj hu'
  rw [hv] at hv'
  obtain rfl := Option.some.inj hv'
  constructor
  · intro h
    subst h
    rw [ku] at kv
    exact key_inj (w := 64) (by decide) ha hb kv
  · intro h
    apply swapBe64_inj (e := e)
    rw [ku, kv]
    unfold key
    rw [h]

theorem LEmits.get_bind {β : Type} {g : Comp → M Comp β} {s s2 : Comp} {b : β} {B : List Bool}
    (h : ∀ w, LEmits (g (s.setW w)) s b B s2) : LEmits (M.get >>= g) s b B s2 := by
  constructor
  · intro w hw hfit
    obtain ⟨w', h1, hrest⟩ := (h w).ok w hw hfit
    exact ⟨w', by rw [M.get_bind_apply]; exact h1, hrest⟩
  · intro w hw hfull
    rw [M.get_bind_apply]
    exact (h w).full w hw hfull

theorem LEmits.pre {α β : Type} {f : M Comp α} {g : α → M Comp β} {s s1 s2 : Comp} {a : α} {b : β}
    {B : List Bool} (hf : CEmits f s a [] s1) (hg : LEmits (g a) s1 b B s2) :
    LEmits (f >>= g) s b B s2 := by
  simpa using hf.toL.bind hg

/-- The main loop appends all ops of the reference except the final pending
repeat. -/
theorem compLoop_emits (e : Endian) (x : List Byte) (m k : Nat) {pos : Nat} {T : Tab} {s : Comp} {last : BitVec 64}
    {lastO : Option (List Byte)} {rc : Nat} (hT : T.Rep x pos) (h8 : pos % 8 = 0)
    (hc : Core x pos T s) (hpos : pos + 8 * k ≤ x.length) (hend : x.length < pos + 8 * k + 8)
    (hlast : pos + 8 ≤ x.length → ∀ v, load64 e x pos = some v → (v = last ↔ some (slice x pos 8) = lastO))
    (hrc : rc ≤ 63) :
    ∃ s' rc' T' A, LEmits (compLoop e (m + k + 1) last rc) s rc' A s' ∧ rc' ≤ 63 ∧
      Core x (pos + 8 * k) T' s' ∧
      (refLoop x k T pos lastO rc).flatMap Op.bits = A ++ (repOps rc').flatMap Op.bits := by
  induction k generalizing pos T s last lastO rc with
  | zero =>
    refine ⟨s, rc, T, [], ?_, hrc, hc, by simp [refLoop]⟩
    unfold compLoop
    refine .get_bind fun w => ?_
    rw [if_neg (by simp only [Comp.setW, hc.ilen]; omega)]
    exact (CEmits.pure s rc).toL
  | succ k ih =>
    obtain ⟨v, hv, hkv⟩ := load64_key e (x := x) (o := pos) (by omega)
    obtain ⟨s1, hem1, hc1, hl1⟩ := getNextData_emits e hc (by omega)
    have hz : v = 0#64 ↔ slice x pos 8 = List.replicate 8 0#8 := by
      rw [← key_zero (x := x) (o := pos) (by omega), ← hkv]
      constructor
      · intro h; rw [h, swapBe64_zero]
      · intro h; apply swapBe64_inj (e := e); rw [h, swapBe64_zero]
    obtain ⟨s2, hem2, hc2, hl2, hrc2⟩ := compStep_emits e hT h8 hc1 hl1 (by omega) hz
      (hlast (by omega) v hv) hrc
    obtain ⟨s3, hem3, hc3⟩ := updateHashtables_emits h8 hc2 hl2
    have hc4 : Core x (pos + 8) (T.next x pos) { s3 with pos := s3.pos + 8, ilen := s3.ilen - 8 } :=
      ⟨hc3.inp, by show s3.ilen - 8 = _; rw [hc3.ilen]; omega, by show s3.pos + 8 = _; rw [hc3.pos],
        hc3.ht8, hc3.ht4, hc3.ht2, hc3.node8, hc3.node4, hc3.node2⟩
    obtain ⟨s5, rc5, T5, A, hem5, hrc5, hc5, hbits⟩ := ih (last := v) (lastO := some (slice x pos 8))
      (rc := (refStep T x pos lastO rc).2) (hT.next h8) (by omega) hc4 (by omega) (by omega)
      (fun h u hu => by
        rw [load64_raw e (by omega) (by omega) hu hv, Option.some.injEq]) hrc2
    refine ⟨s5, rc5, T5, (refStep T x pos lastO rc).1.flatMap Op.bits ++ A, ?_, hrc5, ?_, ?_⟩
    · rw [show m + (k + 1) + 1 = (m + k + 1) + 1 by omega, compLoop]
      refine .get_bind fun w => ?_
      rw [if_pos (by simp only [Comp.setW, hc.ilen]; omega)]
      refine .pre (f := M.access _) (a := v) (s1 := s) (.of_pure fun w' => ?_) ?_
      · simp [M.access, Comp.setW, hc.inp, hc.pos, hv]
      refine .pre hem1 ?_
      refine hem2.bind ?_
      refine .pre hem3 ?_
      refine .pre (f := M.modify _) (a := ()) (s1 := { s3 with pos := s3.pos + 8, ilen := s3.ilen - 8 })
        (.of_pure fun w' => rfl) ?_
      exact hem5
    · have : pos + 8 * (k + 1) = pos + 8 + 8 * k := by omega
      rw [this]; exact hc5
    · rw [refLoop]
      simp only [List.flatMap_append]
      rw [hbits, List.append_assoc]

theorem addShortBytes_emits (e : Endian) {x pos T} {s : Comp} (hc : Core x pos T s) (n i : Nat)
    (h : pos + i + n ≤ x.length) :
    CEmits (addShortBytes e n i) s () (bytesBits (slice x (pos + i) n)) s := by
  induction n generalizing i with
  | zero => exact .pure _ _
  | succ n ih =>
    rw [addShortBytes]
    have hlt : pos + i < x.length := by omega
    refine .access_bind (a := x[pos + i]) (fun _ => by simp [Comp.setW, hc.inp, hc.pos, hlt]) ?_
    have hs : slice x (pos + i) (n + 1) = x[pos + i] :: slice x (pos + (i + 1)) n := by
      unfold slice
      rw [List.drop_eq_getElem_cons hlt, List.take_succ_cons]
      rfl
    have ht : (x[pos + i].setWidth 64).toNat = x[pos + i].toNat := by
      rw [BitVec.toNat_setWidth]
      have := x[pos + i].isLt
      omega
    rw [hs, bytesBits_cons]
    exact .addBits_bind e (by omega) (by omega) (by rw [ht]; exact x[pos + i].isLt) (by rw [ht])
      (ih (i + 1) (by omega))

/-- Everything up to the padding. -/
def compPre (e : Endian) (addr : Nat) (fuel : Nat) (inp : List Byte) : M Comp Unit := do
  if inp.length < 8 then pure ()
  else do
    let first ← M.access fun p => load64 e p.inp p.pos
    let rc ← compLoop e fuel (~~~ first) 0
    if rc ≠ 0 then addRepeat e rc else pure ()
  let p ← M.get
  if p.ilen > 0 then do
    addShortData e p.ilen
    M.modify fun p => { p with pos := p.pos + p.ilen, ilen := 0 }
  else pure ()
  liftW (addBits e 0x1E#64 5)
  let crc ← M.access fun _ => crc32be e addr 0#32 inp inp.length
  liftW (addBits e (crc.setWidth 64) 32)

def compFin (total : Nat) : M Comp Nat := do
  liftW (compPad total)
  let p ← M.get
  if total - p.w.olen > 0xffffffff then M.fail .ENOSPC
  else pure (total - p.w.olen)

theorem compBody_eq (e : Endian) (addr fuel : Nat) (inp : List Byte) (total : Nat) :
    compBody e addr fuel inp total = (compPre e addr fuel inp >>= fun _ => compFin total) := by
  have hp : ∀ {α β : Type} (a : α) (f : α → M Comp β), ((Pure.pure a : M Comp α) >>= f) = f a := fun _ _ => rfl
  have hi : ∀ {α β : Type} (c : Prop) [Decidable c] (f g : M Comp α) (k : α → M Comp β),
      ((if c then f else g) >>= k) = (if c then f >>= k else g >>= k) := by
    intro α β c _ f g k; split <;> rfl
  unfold compBody compPre compFin
  simp only [M.bind_assoc', hi, hp]

theorem addShortData_emits (e : Endian) {x pos T} {s : Comp} (hc : Core x pos T s) (n : Nat) (h1 : 1 ≤ n)
    (h7 : n ≤ 7) (h : pos + n = x.length) :
    CEmits (addShortData e n) s () (Op.short (x.drop pos)).bits s := by
  unfold addShortData
  rw [if_neg (by omega)]
  have hl : (x.drop pos).length = n := by simp; omega
  have hn : (BitVec.ofNat 64 n).toNat = n := by rw [BitVec.toNat_ofNat]; omega
  rw [Op.bits, hl, List.append_assoc]
  refine .addBits_bind e (by omega) (by omega) (by decide) rfl ?_
  refine .addBits_bind e (by omega) (by omega) (by rw [hn]; omega) (by rw [hn]) ?_
  have := addShortBytes_emits e hc n 0 (by omega)
  rwa [Nat.add_zero, slice, List.take_of_length_le (by omega)] at this

/-- The bits of a compressed stream, without padding. -/
def streamBits (x : List Byte) : List Bool := (refOps x).flatMap Op.bits ++ trailer x

theorem compPre_emits (e : Endian) (addr m : Nat) (x : List Byte) {s : Comp} (hc : Core x 0 .init s) :
    ∃ s', CEmits (compPre e addr (m + x.length / 8 + 1) x) s () (streamBits x) s' := by
  -- the trailer
  have hcrc := crc32be_eq e addr x x.length (Nat.le_refl _)
  rw [List.take_length] at hcrc
  have htr : ∀ s, CEmits (liftW (addBits e 0x1E#64 5) >>= fun _ =>
      M.access (fun _ => crc32be e addr 0#32 x x.length) >>= fun crc =>
      liftW (addBits e (crc.setWidth 64) 32)) s () (trailer x) s := by
    intro s
    refine .addBits_bind e (by omega) (by omega) (by decide) rfl ?_
    refine .access_bind (a := crc x) (fun _ => hcrc) ?_
    have ht : ((crc x).setWidth 64).toNat = (crc x).toNat := by
      rw [BitVec.toNat_setWidth]
      have := (crc x).isLt
      omega
    exact .addBits_last e (by omega) (by omega) (by rw [ht]; exact (crc x).isLt) (by rw [ht])
  -- short data and trailer
  have hsh : ∀ {T s}, Core x (8 * (x.length / 8)) T s → ∃ s', CEmits (M.get >>= fun p =>
      if p.ilen > 0 then addShortData e p.ilen >>= fun _ =>
        M.modify (fun p => { p with pos := p.pos + p.ilen, ilen := 0 }) >>= fun _ =>
        (liftW (addBits e 0x1E#64 5) >>= fun _ =>
        M.access (fun _ => crc32be e addr 0#32 x x.length) >>= fun crc =>
        liftW (addBits e (crc.setWidth 64) 32))
      else (liftW (addBits e 0x1E#64 5) >>= fun _ =>
        M.access (fun _ => crc32be e addr 0#32 x x.length) >>= fun crc =>
        liftW (addBits e (crc.setWidth 64) 32))) s () ((shortOps x).flatMap Op.bits ++ trailer x) s' := by
    intro T s hc
    by_cases h0 : x.length % 8 = 0
    · refine ⟨s, .get_bind fun w => ?_⟩
      rw [if_neg (by simp only [Comp.setW, hc.ilen]; omega), shortOps, if_pos h0]
      exact htr s
    · refine ⟨{ s with pos := s.pos + s.ilen, ilen := 0 }, .get_bind fun w => ?_⟩
      rw [if_pos (by simp only [Comp.setW, hc.ilen]; omega), shortOps, if_neg h0]
      simp only [List.flatMap_cons, List.flatMap_nil, List.append_nil, Comp.setW]
      refine (addShortData_emits e hc s.ilen (by rw [hc.ilen]; omega) (by rw [hc.ilen]; omega)
        (by rw [hc.ilen]; omega)).bind ?_
      exact .modify_bind (fun _ => rfl) (htr _)
  unfold compPre streamBits refOps
  by_cases hlen : x.length < 8
  · rw [if_pos hlen]
    have h0 : x.length / 8 = 0 := by omega
    rw [h0, refLoop, List.flatMap_append, repOps, if_pos rfl]
    have := @hsh .init s (by rw [h0]; exact hc)
    simpa [refLoop, repOps] using this
  · rw [if_neg hlen]
    obtain ⟨v, hv, -⟩ := load64_key e (x := x) (o := 0) (by omega)
    obtain ⟨s1, rc1, T1, A, hem, hrc, hc1, hbits⟩ := compLoop_emits e x m (x.length / 8) (last := ~~~ v)
      (lastO := none) (rc := 0) (.init x) rfl hc (by omega) (by omega)
      (fun _ u hu => by
        rw [hv] at hu
        obtain rfl := Option.some.inj hu
        constructor
        · intro h
          have := congrArg (fun t : BitVec 64 => t.getLsbD 0) h
          simp at this
        · intro h; cases h) (by omega)
    rw [Nat.zero_add] at hc1
    obtain ⟨s2, hem2⟩ := hsh hc1
    refine ⟨s2, ?_⟩
    rw [List.flatMap_append, hbits, List.append_assoc, List.append_assoc]
    refine .access_bind (a := v) (fun _ => by simp [Comp.setW, hc.inp, hc.pos, hv]) ?_
    refine LEmits.bindC hem ?_ ?_
    · by_cases h0 : rc1 = 0
      · rw [if_neg (fun h => h h0), repOps, if_pos h0]
        exact hem2
      · rw [if_pos h0, repOps, if_neg h0]
        obtain ⟨f, hf, hem'⟩ := addRepeat_eq e (r := rc1) (by omega) (by omega)
        rw [hf, List.flatMap_cons, List.flatMap_nil, List.append_nil]
        exact (CEmits.lift hem' s1).bind hem2
    · simp only [List.length_append, trailer, length_bitsOf]; omega

/-- Size in bytes of a stream of `n` bits: padded to a multiple of 8. -/
def paddedSize (n : Nat) : Nat := 8 * ((n + 63) / 64)

theorem compPad_res {w : Writer} (hw : w.Inv) :
    if paddedSize w.P ≤ w.cap then
      ∃ w', compPad w.cap w = .ok () w' ∧ w'.olen + paddedSize w.P = w.cap ∧ w'.cap = w.cap ∧
        (bytesBits w'.buf).take (8 * paddedSize w.P) =
          w.wbits ++ List.replicate (8 * paddedSize w.P - w.P) false
    else ∃ w', compPad w.cap w = .err .ENOSPC w' ∧ w'.cap = w.cap := by
  have hlen := hw.len
  have hbit := hw.bit
  have hP : w.P = 8 * w.out + w.bit := rfl
  have hcap : w.cap = w.buf.length := rfl
  -- after rounding up to a byte
  obtain ⟨w1, e1, hb1, ho1, hol1, hz1⟩ : ∃ w1 : Writer,
      (if w.bit ≠ 0 then { w with out := w.out + 1, olen := w.olen - 1, bit := 0 } else w) = w1 ∧
      w1.buf = w.buf ∧ w1.out = (w.P + 7) / 8 ∧ w1.olen + w1.out = w.cap ∧
      (bytesBits w1.buf).take (8 * w1.out) = w.wbits ++ List.replicate (8 * w1.out - w.P) false := by
    by_cases h0 : w.bit = 0
    · refine ⟨w, by rw [if_neg (fun h => h h0)], rfl, by omega, by omega, ?_⟩
      have : w.P = 8 * w.out := by omega
      rw [Writer.wbits, this, Nat.sub_self, List.replicate_zero, List.append_nil]
    · obtain ⟨hge, hpart⟩ := hw.part h0
      refine ⟨{ w with out := w.out + 1, olen := w.olen - 1, bit := 0 }, by rw [if_pos h0], rfl, ?_, ?_, ?_⟩
      · show w.out + 1 = _; omega
      · show w.olen - 1 + (w.out + 1) = _; omega
      · show (bytesBits w.buf).take (8 * (w.out + 1)) = _
        rw [hpart]
        congr 2
        show 8 - w.bit = 8 * (w.out + 1) - w.P
        omega
  have hbl : w1.buf.length = w.cap := by rw [hb1, hcap]
  have hps : paddedSize w.P = w1.out + (8 - w1.out % 8) % 8 := by unfold paddedSize; omega
  have htot : w.cap - w1.olen = w1.out := by omega
  unfold compPad
  rw [M.modify_bind_apply]
  simp only [e1]
  rw [M.get_bind_apply]
  simp only [htot]
  by_cases hpad : (8 - w1.out % 8) % 8 = 0
  · rw [if_pos (by omega)]
    refine ⟨w1, ?_, by omega, hbl, ?_⟩
    · rw [if_neg (fun h => h hpad)]; rfl
    · rw [hps, hpad]; exact hz1
  · simp only [ne_eq, hpad, not_false_iff, if_true]
    by_cases hfit : paddedSize w.P ≤ w.cap
    · rw [if_pos hfit, if_neg (by omega)]
      have hwr : w1.out + (List.replicate ((8 - w1.out % 8) % 8) 0#8).length ≤ w1.buf.length := by
        rw [List.length_replicate]; omega
      let nb := w1.buf.take w1.out ++ List.replicate ((8 - w1.out % 8) % 8) 0#8 ++
        w1.buf.drop (w1.out + (8 - w1.out % 8) % 8)
      rw [M.update_bind_some (s' := { w1 with buf := nb })]
      · refine ⟨_, rfl, ?_, ?_, ?_⟩
        · show w1.olen - (8 - w1.out % 8) % 8 + paddedSize w.P = w.cap
          omega
        · show List.length nb = _
          simp only [nb, List.length_append, List.length_take, List.length_drop, List.length_replicate]
          omega
        · show (bytesBits (w1.buf.take w1.out ++ List.replicate ((8 - w1.out % 8) % 8) 0#8 ++
            w1.buf.drop (w1.out + (8 - w1.out % 8) % 8))).take _ = _
          have ht := take_replace hwr (8 * ((8 - w1.out % 8) % 8)) (by rw [List.length_replicate])
          rw [List.length_replicate] at ht
          rw [hps, Nat.mul_add, ht, hz1, List.append_assoc]
          congr 1
          rw [List.take_of_length_le (by rw [length_bytesBits, List.length_replicate])]
          have hrep : ∀ k, bytesBits (List.replicate k 0#8) = List.replicate (8 * k) false := by
            intro k
            induction k with
            | zero => rfl
            | succ k ih =>
              rw [List.replicate_succ, bytesBits_cons, ih, show bitsOf 8 (0#8).toNat = List.replicate 8 false by decide,
                List.replicate_append_replicate]
              congr 1; omega
          rw [hrep, List.replicate_append_replicate]
          congr 1
          omega
      · rw [writeBytes, if_pos hwr, List.length_replicate]
        rfl
    · rw [if_neg hfit, if_pos (by omega)]
      exact ⟨w1, rfl, hbl⟩

theorem compInit_core (j : CompJunk) (x buf : List Byte) : Core x 0 .init (compInit j x buf) :=
  ⟨rfl, rfl, rfl, rfl, rfl, rfl, rfl, rfl, rfl⟩

/-- Complete description of a call of `sw842_compress`. -/
theorem sw842CompressF_eq (e : Endian) (addr m : Nat) (j : CompJunk) (x buf : List Byte) :
    ∃ b, b.length = buf.length ∧
      if paddedSize (streamBits x).length ≤ buf.length ∧ paddedSize (streamBits x).length ≤ 0xffffffff then
        sw842CompressF (m + x.length / 8 + 1) e addr j x buf =
            .ret none (paddedSize (streamBits x).length) b ∧
        bytesBits (b.take (paddedSize (streamBits x).length)) = streamBits x ++
          List.replicate (8 * paddedSize (streamBits x).length - (streamBits x).length) false
      else sw842CompressF (m + x.length / 8 + 1) e addr j x buf = .ret (some .ENOSPC) 0 b := by
  obtain ⟨s', hem⟩ := compPre_emits e addr m x (compInit_core j x buf)
  have hw : (compInit j x buf).w.Inv := ⟨by simp [compInit], by simp [compInit], by simp [compInit]⟩
  have hset : (compInit j x buf).setW (compInit j x buf).w = compInit j x buf := rfl
  have hcap : (compInit j x buf).w.cap = buf.length := rfl
  have hP : (compInit j x buf).w.P = 0 := rfl
  have hwb : (compInit j x buf).w.wbits = [] := rfl
  unfold sw842CompressF
  rw [compBody_eq]
  by_cases hfit : (streamBits x).length ≤ 8 * buf.length
  · obtain ⟨w1, h1, hi1, hc1, hb1⟩ := hem.ok _ hw (by rw [hcap, hP]; omega)
    rw [hset] at h1
    have hP1 := P_of_wbits hw hi1 hb1
    rw [hP, Nat.zero_add] at hP1
    rw [hwb, List.nil_append] at hb1
    have hpad := compPad_res hi1
    rw [hP1, hc1, hcap, hb1] at hpad
    rw [M.bind_ok h1]
    unfold compFin
    by_cases hp : paddedSize (streamBits x).length ≤ buf.length
    · rw [if_pos hp] at hpad
      obtain ⟨w2, e2, ho2, hc2, hz2⟩ := hpad
      have hl : liftW (compPad buf.length) (s'.setW w1) = .ok () (s'.setW w2) := by
        simp [liftW, Comp.setW, e2]
      have hval : buf.length - ((s'.setW w2).w).olen = paddedSize (streamBits x).length := by
        show buf.length - w2.olen = _; omega
      rw [M.bind_ok hl, M.get_bind_apply, hval]
      refine ⟨w2.buf, hc2, ?_⟩
      by_cases hu : paddedSize (streamBits x).length ≤ 0xffffffff
      · rw [if_pos ⟨hp, hu⟩, if_neg (by omega)]
        refine ⟨rfl, ?_⟩
        rw [bytesBits_take, hz2]
      · rw [if_neg (fun h => hu h.2), if_pos (by omega)]
        rfl
    · rw [if_neg hp] at hpad
      obtain ⟨w2, e2, hc2⟩ := hpad
      have hl : liftW (compPad buf.length) (s'.setW w1) = .err .ENOSPC (s'.setW w2) := by
        simp [liftW, Comp.setW, e2]
      refine ⟨w2.buf, hc2, ?_⟩
      rw [if_neg (fun h => hp h.1), M.bind_err hl]
      rfl
  · obtain ⟨q, h1, hi1, hc1, -⟩ := hem.full _ hw (by rw [hcap, hP]; omega)
    rw [hset] at h1
    refine ⟨q.w.buf, hc1, ?_⟩
    rw [M.bind_err h1, if_neg]
    intro h
    have := h.1
    unfold paddedSize at this
    omega

end Lib842
