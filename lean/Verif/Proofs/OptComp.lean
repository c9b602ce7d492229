import Verif.Proofs.BStream
import Verif.Proofs.OptRef
import Verif.Proofs.SwCall
/-!
# The optimized compressor emits the reference op sequence
-/

namespace Lib842
open Spec

/-! ## Separating the stream from the rest of the state -/

/-- `x` maps core state `c` to `c'`, returns `a`, and writes `bits`. -/
def CE (e : Endian) {α : Type} (x : M OComp α) (c : OCore) (a : α) (c' : OCore) (bits : List Bool) : Prop :=
  ∃ ws, WritesOk ws ∧ writeBitsOf ws = bits ∧ ∀ s,
    (∀ s', writeAll e ws s = .ok () s' → x ⟨c, s⟩ = .ok a ⟨c', s'⟩) ∧
    (∀ er s', writeAll e ws s = .err er s' → ∃ c'', x ⟨c, s⟩ = .err er ⟨c'', s'⟩)

namespace CE
variable {e : Endian} {α β : Type}

theorem of_ok {x : M OComp α} {c c' : OCore} {a : α} (h : ∀ s, x ⟨c, s⟩ = .ok a ⟨c', s⟩) :
    CE e x c a c' [] := by
  refine ⟨[], fun w hw => (by cases hw), rfl, fun s => ⟨fun s' hs => ?_, fun er s' hs => ?_⟩⟩
  · cases hs; exact h _
  · cases hs

theorem pure (a : α) (c : OCore) : CE e (pure a) c a c [] := of_ok fun _ => rfl

theorem bind {x : M OComp α} {f : α → M OComp β} {c c1 c2 : OCore} {a : α} {b : β} {B B' : List Bool}
    (h : CE e x c a c1 B) (h' : CE e (f a) c1 b c2 B') : CE e (x >>= f) c b c2 (B ++ B') := by
  obtain ⟨w1, o1, b1, h1⟩ := h
  obtain ⟨w2, o2, b2, h2⟩ := h'
  refine ⟨w1 ++ w2, ?_, ?_, fun s => ?_⟩
  · intro w hw
    rcases List.mem_append.1 hw with hw | hw
    · exact o1 w hw
    · exact o2 w hw
  · rw [← b1, ← b2]; unfold writeBitsOf; rw [List.flatMap_append]
  · rw [writeAll_append, M.bind_def]
    cases hw : writeAll e w1 s with
    | ok u s1 =>
      have hx := (h1 s).1 s1 hw
      refine ⟨fun s' hs => ?_, fun er s' hs => ?_⟩
      · rw [M.bind_ok hx]; exact (h2 s1).1 s' hs
      · rw [M.bind_ok hx]; exact (h2 s1).2 er s' hs
    | err er s1 =>
      obtain ⟨c'', hx⟩ := (h1 s).2 er s1 hw
      refine ⟨fun s' hs => (by cases hs), fun er' s' hs => ?_⟩
      cases hs
      exact ⟨c'', M.bind_err hx⟩
    | ub => exact ⟨fun s' hs => (by cases hs), fun er s' hs => (by cases hs)⟩
    | timeout => exact ⟨fun s' hs => (by cases hs), fun er s' hs => (by cases hs)⟩

theorem get_bind {f : OComp → M OComp β} {c c' : OCore} {b : β} {B : List Bool}
    (h : ∃ ws, WritesOk ws ∧ writeBitsOf ws = B ∧ ∀ s,
      (∀ s', writeAll e ws s = .ok () s' → f ⟨c, s⟩ ⟨c, s⟩ = .ok b ⟨c', s'⟩) ∧
      (∀ er s', writeAll e ws s = .err er s' → ∃ c'', f ⟨c, s⟩ ⟨c, s⟩ = .err er ⟨c'', s'⟩)) :
    CE e (M.get >>= f) c b c' B := h

/-- Reading the state when the continuation only looks at the core. -/
theorem get_bind' {f : OComp → M OComp β} {g : OCore → M OComp β} {c c' : OCore} {b : β} {B : List Bool}
    (hf : ∀ p, f p = g p.core) (h : CE e (g c) c b c' B) : CE e (M.get >>= f) c b c' B := by
  obtain ⟨ws, o, hb, hw⟩ := h
  refine ⟨ws, o, hb, fun s => ?_⟩
  show (∀ s', writeAll e ws s = .ok () s' → f ⟨c, s⟩ ⟨c, s⟩ = .ok b ⟨c', s'⟩) ∧ _
  rw [show (M.get >>= f) ⟨c, s⟩ = f ⟨c, s⟩ ⟨c, s⟩ from rfl, hf]
  exact hw s

theorem access_bind {g : OComp → Option α} {f : α → M OComp β} {c c' : OCore} {a : α} {b : β}
    {B : List Bool} (hg : ∀ s, g ⟨c, s⟩ = some a) (h : CE e (f a) c b c' B) :
    CE e (M.access g >>= f) c b c' B := by
  obtain ⟨ws, o, hb, hw⟩ := h
  refine ⟨ws, o, hb, fun s => ?_⟩
  rw [M.access_bind_some (hg s)]
  exact hw s

theorem liftC_bind {g : OCore → Option OCore} {f : Unit → M OComp β} {c c1 c' : OCore} {b : β}
    {B : List Bool} (hg : g c = some c1) (h : CE e (f ()) c1 b c' B) :
    CE e (liftC g >>= f) c b c' B := by
  obtain ⟨ws, o, hb, hw⟩ := h
  refine ⟨ws, o, hb, fun s => ?_⟩
  unfold liftC
  rw [M.update_bind_some (s' := ⟨c1, s⟩) (by simp [hg])]
  exact hw s

theorem liftS_of {x : M BStream Unit} {ws : List (BitVec 64 × Nat)} (hx : x = writeAll e ws)
    (ho : WritesOk ws) (c : OCore) : CE e (liftS x) c () c (writeBitsOf ws) := by
  subst hx
  refine ⟨ws, ho, rfl, fun s => ⟨fun s' hs => ?_, fun er s' hs => ⟨c, ?_⟩⟩⟩
  · unfold liftS; simp only [hs]
  · unfold liftS; simp only [hs]

theorem writeBits {v : BitVec 64} {n : Nat} (hn1 : 1 ≤ n) (hn : n ≤ 64) (hv : v.toNat < 2 ^ n) (c : OCore) :
    CE e (liftS (streamWriteBits e v n)) c () c (bitsOf n v.toNat) := by
  have := liftS_of (e := e) (x := streamWriteBits e v n) (ws := [(v, n)]) (by
    funext s
    simp only [writeAll, M.bind_def]
    cases streamWriteBits e v n s <;> rfl) (by
    intro w hw; rw [List.mem_singleton] at hw; subst hw; exact ⟨hn1, hn, hv⟩) c
  simpa [writeBitsOf] using this

end CE

/-! ## Packing the fields of a template -/

/-- Width of an operand. -/
def srcWidth : OptSrc → Nat
  | .code => 5
  | .mid => 32
  | .dai i => if i < 4 then 16 else if i < 6 then 32 else if i = 6 then 64 else if i < 11 then 8
      else if i < 13 then 9 else 8

def packShifts : List OptSrc → List (OptSrc × Nat)
  | [] => []
  | s :: ss => (s, (ss.map srcWidth).sum) :: packShifts ss

/-- The operand for an action at offset `o` of the block. -/
def actSrc : Action → Nat → OptSrc
  | .D n, o => if n = 2 then .dai (o / 2) else if n = 4 then (if o = 2 then .mid else .dai (4 + o / 4)) else .dai 6
  | .I n, o => .dai (7 + slotOf n o)

def actSrcs : List Action → Nat → List OptSrc
  | [], _ => []
  | a :: as, o => actSrc a o :: actSrcs as (o + actionSize a)

theorem optRows_ok : ∀ code, 1 ≤ code → code < 26 →
    optRows[code - 1]? = some (templateBits (templates.getD code []),
      packShifts (.code :: actSrcs (templates.getD code []) 0)) ∧
    ((OptSrc.code :: actSrcs (templates.getD code []) 0).map srcWidth).sum =
      templateBits (templates.getD code []) ∧ templateBits (templates.getD code []) ≤ 64 := by
  intro code h1 h2
  interval_cases code <;> exact ⟨rfl, rfl, by decide⟩

theorem orShifted_pack {e : Endian} {code : Nat} {c : OCore} {bits : OptSrc → List Bool}
    {l : List OptSrc}
    (h : ∀ s ∈ l, ∃ v, s.eval e code c = some v ∧ v.toNat < 2 ^ srcWidth s ∧
      bitsOf (srcWidth s) v.toNat = bits s) (hsum : (l.map srcWidth).sum ≤ 64)
    (hpos : ∀ s ∈ l, 1 ≤ srcWidth s) :
    ∃ v, orShifted e code c (packShifts l) = some v ∧ v.toNat < 2 ^ (l.map srcWidth).sum ∧
      bitsOf (l.map srcWidth).sum v.toNat = l.flatMap bits := by
  induction l with
  | nil => exact ⟨0#64, rfl, by simp, by simp [bitsOf]⟩
  | cons s l ih =>
    obtain ⟨r, hr1, hr2, hr3⟩ := ih (fun s hs => h s (List.mem_cons_of_mem _ hs))
      (by simp only [List.map_cons, List.sum_cons] at hsum; omega)
      (fun s hs => hpos s (List.mem_cons_of_mem _ hs))
    obtain ⟨v, hv1, hv2, hv3⟩ := h s (List.mem_cons_self ..)
    have hw := hpos s (List.mem_cons_self ..)
    simp only [List.map_cons, List.sum_cons] at hsum ⊢
    rw [packShifts, orShifted, hv1]
    generalize (l.map srcWidth).sum = k at *
    have hshl : (v <<< k).toNat = v.toNat * 2 ^ k := by
      rw [BitVec.toNat_shiftLeft, Nat.shiftLeft_eq, Nat.mod_eq_of_lt]
      calc v.toNat * 2 ^ k < 2 ^ srcWidth s * 2 ^ k := Nat.mul_lt_mul_of_pos_right hv2 (Nat.two_pow_pos _)
        _ = 2 ^ (srcWidth s + k) := by rw [Nat.pow_add]
        _ ≤ 2 ^ 64 := Nat.pow_le_pow_right (by omega) hsum
    have hor : (v <<< k ||| r).toNat = v.toNat * 2 ^ k + r.toNat := by
      rw [BitVec.toNat_or, hshl, Nat.mul_comm, Nat.two_pow_add_eq_or_of_lt hr2]
    refine ⟨v <<< k ||| r, ?_, ?_, ?_⟩
    · simp only [Option.bind_eq_bind, Option.bind_some]
      rw [cshl_some (m := k) rfl (by omega), hr1]
      rfl
    · rw [hor, Nat.pow_add]
      calc v.toNat * 2 ^ k + r.toNat < v.toNat * 2 ^ k + 2 ^ k := by omega
        _ = (v.toNat + 1) * 2 ^ k := by rw [Nat.succ_mul]
        _ ≤ 2 ^ srcWidth s * 2 ^ k := Nat.mul_le_mul_right _ hv2
    · rw [bitsOf_append, hor, List.flatMap_cons, ← hr3, ← hv3]
      congr 1
      · rw [Nat.shiftRight_eq_div_pow, Nat.mul_comm, Nat.mul_add_div (Nat.two_pow_pos _),
          Nat.div_eq_of_lt hr2, Nat.add_zero]
      · rw [← bitsOf_mod, Nat.mul_comm, Nat.mul_add_mod, bitsOf_mod]

/-! ## State correspondence -/

/-- A FIFO together with its hash table. -/
structure FifoRep {w : Nat} (n : Nat) (fifo : Nat → BitVec w) (ht : Nat → BitVec 16) (x : List Byte)
    (pos : Nat) : Prop where
  val : ∀ j v, slots w n x pos j = some v → fifo j = v
  ent : ∀ h, 0 ≤ (ht h).toInt → ∃ v, slots w n x pos (ht h).toNat = some v

structure ORep (c : OCore) (T : OTab) (x : List Byte) (pos : Nat) : Prop where
  inp : c.inp = x
  ilen : c.ilen = x.length - pos
  hashes : c.hashes = T.hashes
  ht16 : c.ht16 = T.ht16
  ht32 : c.ht32 = T.ht32
  ht64 : c.ht64 = T.ht64
  hb : ∀ k, k < 7 → (T.hashes k).toNat < 2 ^ dictBits (slotSize k)
  f16 : FifoRep 2 c.fifo16 T.ht16 x pos
  f32 : FifoRep 4 c.fifo32 T.ht32 x pos
  f64 : FifoRep 8 c.fifo64 T.ht64 x pos
  pos : c.pos = pos

/-- The data fields hold the block at `pos`. -/
def OLoaded (c : OCore) (x : List Byte) (pos : Nat) : Prop :=
  ∀ k, k < 7 → c.dai k = dataAt x (slotSize k) (pos + slotOff k)

theorem hashOne_lt (b : Nat) (hb : b ≤ 64) (v : BitVec 64) : (hashOne b v).toNat < 2 ^ b := by
  unfold hashOne
  rw [BitVec.toNat_ushiftRight, Nat.shiftRight_eq_div_pow, Nat.div_lt_iff_lt_mul (Nat.two_pow_pos _),
    ← Nat.pow_add, show b + (64 - b) = 64 by omega]
  exact BitVec.isLt _

theorem dataAt_eq {n : Nat} (hn : SizeOk n) (x : List Byte) (o : Nat) :
    dataAt x n o = (key (8 * n) x o).setWidth 64 := by
  unfold dataAt
  rcases hn with rfl | rfl | rfl
  · rfl
  · rfl
  · simp only [show (8 : Nat) ≠ 2 by decide, show (8 : Nat) ≠ 4 by decide, if_false]
    exact (BitVec.setWidth_eq _).symm

theorem toInt_nonneg {i : BitVec 16} (h : i.toNat < 2 ^ 15) : 0 ≤ i.toInt := by
  rw [BitVec.toInt_eq_toNat_of_lt (by omega)]; omega

/-- The index stored for a hit. -/
theorem index_ext {i : BitVec 16} (h : i.toNat < 2 ^ 15) :
    ((0xFFFF#16).setWidth 32 &&& i.signExtend 32).signExtend 64 = BitVec.ofNat 64 i.toNat := by
  have hm : i.msb = false := by rw [BitVec.msb_eq_decide]; simp; omega
  rw [BitVec.signExtend_eq_setWidth_of_msb_false hm]
  have h1 : (0xFFFF#16).setWidth 32 &&& i.setWidth 32 = i.setWidth 32 := by
    apply BitVec.eq_of_toNat_eq
    rw [BitVec.toNat_and, show ((0xFFFF#16).setWidth 32).toNat = 2 ^ 16 - 1 from rfl, Nat.and_comm,
      Nat.and_two_pow_sub_one_eq_mod, BitVec.toNat_setWidth]
    omega
  rw [h1, BitVec.signExtend_eq_setWidth_of_msb_false (by
    rw [BitVec.msb_eq_decide]; simp only [BitVec.toNat_setWidth, decide_eq_false_iff_not]; omega)]
  apply BitVec.eq_of_toNat_eq
  simp only [BitVec.toNat_setWidth, BitVec.toNat_ofNat]
  omega

theorem index_ext0 (i : BitVec 16) :
    ((0#16).setWidth 32 &&& i.signExtend 32).signExtend 64 = 0#64 := by
  have : (0#16).setWidth 32 &&& i.signExtend 32 = 0#32 := by simp
  rw [this]; rfl

theorem setWidth_inj {w : Nat} (hw : w ≤ 64) {u v : BitVec w} (h : u.setWidth 64 = v.setWidth 64) : u = v := by
  apply BitVec.eq_of_toNat_eq
  have := congrArg BitVec.toNat h
  have hu := u.isLt
  have hv := v.isLt
  have hp : 2 ^ w ≤ 2 ^ 64 := Nat.pow_le_pow_right (by omega) hw
  simp only [BitVec.toNat_setWidth] at this
  rwa [Nat.mod_eq_of_lt (by omega), Nat.mod_eq_of_lt (by omega)] at this

theorem probe_ok {n : Nat} (hn : SizeOk n) {tabSize fifoSize : Nat} (ht : tabSize = 2 ^ dictBits n)
    (hfs : fifoSize = 2 ^ indexBits n) {x : List Byte} {pos o : Nat} {tab : Nat → BitVec 16}
    {fifo : Nat → BitVec (8 * n)} (h8 : pos % 8 = 0) (hr : FifoRep n fifo tab x pos) :
    ∃ i v, probe tabSize fifoSize tab fifo (hashOne (dictBits n) (dataAt x n o)) (dataAt x n o) = some (i, v) ∧
      (v = if (hit tab n x pos o).isSome then 0xFFFF#16 else 0#16) ∧
      (v.setWidth 32 &&& i.signExtend 32).signExtend 64 = BitVec.ofNat 64 ((hit tab n x pos o).getD 0) := by
  have hlt : (hashOne (dictBits n) (dataAt x n o)).toNat < tabSize := by
    rw [ht]; apply hashOne_lt; unfold dictBits; split <;> omega
  have hdef : hit tab n x pos o = if 0 ≤ (tab (hashOne (dictBits n) (dataAt x n o)).toNat).toInt ∧
      slots (8 * n) n x pos (tab (hashOne (dictBits n) (dataAt x n o)).toNat).toNat =
        some (key (8 * n) x o) then some (tab (hashOne (dictBits n) (dataAt x n o)).toNat).toNat else none := rfl
  unfold probe arrGet
  rw [if_pos hlt]
  simp only
  have hent := hr.ent (hashOne (dictBits n) (dataAt x n o)).toNat
  generalize tab (hashOne (dictBits n) (dataAt x n o)).toNat = i at hdef hent ⊢
  by_cases hi : 0 ≤ i.toInt
  · rw [if_pos hi]
    obtain ⟨u, hu⟩ : ∃ u, slots (8 * n) n x pos i.toNat = some u := hent hi
    have hj := ((slots_some hn h8).1 hu).1
    have hfv := hr.val _ _ hu
    have hj' : i.toNat < 2 ^ 15 := by
      refine lt_of_lt_of_le hj (Nat.pow_le_pow_right (by omega) ?_)
      rcases hn with rfl | rfl | rfl <;> simp [indexBits]
    rw [if_pos (by rw [hfs]; exact hj), hfv]
    simp only
    have hw : 8 * n ≤ 64 := by rcases hn with rfl | rfl | rfl <;> omega
    by_cases hk : u = key (8 * n) x o
    · have hc : u.setWidth 64 = dataAt x n o := by rw [dataAt_eq hn, hk]
      rw [if_pos ⟨hi, hu.trans (congrArg some hk)⟩] at hdef
      rw [hdef, if_pos hc]
      exact ⟨i, _, rfl, rfl, index_ext hj'⟩
    · have hc : ¬ u.setWidth 64 = dataAt x n o := by
        rw [dataAt_eq hn]; exact fun h => hk (setWidth_inj hw h)
      rw [if_neg (by rintro ⟨-, h⟩; rw [hu] at h; exact hk (Option.some.inj h))] at hdef
      rw [hdef, if_neg hc]
      exact ⟨i, _, rfl, rfl, index_ext0 i⟩
  · rw [if_neg hi]
    rw [if_neg (fun h => hi h.1)] at hdef
    rw [hdef]
    exact ⟨i, _, rfl, rfl, index_ext0 i⟩

/-! ## Searching the dictionaries -/

/-- The hashes are those of the current block. -/
def OHashed (T : OTab) (x : List Byte) (pos : Nat) : Prop :=
  ∀ k, k < 7 → T.hashes k = hashOne (dictBits (slotSize k)) (dataAt x (slotSize k) (pos + slotOff k))

/-- The results for the first `m` values are stored. -/
def OFound (m : Nat) (c : OCore) (T : OTab) (x : List Byte) (pos : Nat) : Prop :=
  ∀ k, k < m → c.dai (7 + k) = BitVec.ofNat 64 ((T.find x pos (slotSize k) (pos + slotOff k)).getD 0) ∧
    c.keys k = keysOf (T.valid x pos) k

theorem slotSize_ok {k : Nat} (hk : k < 7) : SizeOk (slotSize k) := by
  interval_cases k <;> simp [slotSize, SizeOk]

theorem findSlot_ok {c : OCore} {T : OTab} {x : List Byte} {pos k : Nat} (hk : k < 7) (h8 : pos % 8 = 0)
    (hr : ORep c T x pos) (hh : OHashed T x pos) (hl : OLoaded c x pos) (hf : OFound k c T x pos) :
    ∃ c', findSlot k c = some c' ∧ ORep c' T x pos ∧ OLoaded c' x pos ∧ OFound (k + 1) c' T x pos := by
  have hn := slotSize_ok hk
  have hprobe : ∃ i v, (if k < 4 then probe 1024 256 c.ht16 c.fifo16 (c.hashes k) (c.dai k)
         else if k < 6 then probe 2048 512 c.ht32 c.fifo32 (c.hashes k) (c.dai k)
         else probe 1024 256 c.ht64 c.fifo64 (c.hashes k) (c.dai k)) = some (i, v) ∧
      (v = if (T.find x pos (slotSize k) (pos + slotOff k)).isSome then 0xFFFF#16 else 0#16) ∧
      (v.setWidth 32 &&& i.signExtend 32).signExtend 64 =
        BitVec.ofNat 64 ((T.find x pos (slotSize k) (pos + slotOff k)).getD 0) := by
    rw [hr.hashes, hh k hk, hl k hk, hr.ht16, hr.ht32, hr.ht64]
    by_cases h4 : k < 4
    · rw [if_pos h4]
      have hs : slotSize k = 2 := by unfold slotSize; rw [if_pos h4]
      rw [hs]
      exact probe_ok (n := 2) (by simp [SizeOk]) rfl rfl h8 hr.f16
    · rw [if_neg h4]
      by_cases h6 : k < 6
      · rw [if_pos h6]
        have hs : slotSize k = 4 := by unfold slotSize; rw [if_neg h4, if_pos h6]
        rw [hs]
        exact probe_ok (n := 4) (by simp [SizeOk]) rfl rfl h8 hr.f32
      · rw [if_neg h6]
        have hs : slotSize k = 8 := by unfold slotSize; rw [if_neg h4, if_neg h6]
        rw [hs]
        exact probe_ok (n := 8) (by simp [SizeOk]) rfl rfl h8 hr.f64
  obtain ⟨i, v, hp, hv, hi⟩ := hprobe
  have hkc : keyConst[k]? = some (keyConst.getD k 0#16) := by
    rw [List.getD_eq_getElem?_getD, List.getElem?_eq_getElem (show k < keyConst.length from hk)]; rfl
  have hkey : keyConst.getD k 0#16 &&& v = keysOf (T.valid x pos) k := by
    unfold keysOf OTab.valid
    rw [hv]
    split
    · exact BitVec.and_allOnes
    · simp
  have hres : findSlot k c = some { c with
      validity := upd c.validity k v
      dai := upd c.dai (7 + k) ((v.setWidth 32 &&& i.signExtend 32).signExtend 64)
      keys := upd c.keys k (keyConst.getD k 0#16 &&& v) } := by
    unfold findSlot; rw [hp, hkc]
  refine ⟨_, hres, ⟨hr.inp, hr.ilen, hr.hashes, hr.ht16, hr.ht32, hr.ht64, hr.hb,
    hr.f16, hr.f32, hr.f64, hr.pos⟩, ?_, ?_⟩
  · intro j hj
    show upd c.dai (7 + k) _ j = _
    unfold upd
    rw [if_neg (by omega)]
    exact hl j hj
  · intro j hj
    show upd c.dai (7 + k) _ (7 + j) = _ ∧ upd c.keys k _ j = _
    unfold upd
    by_cases hjk : j = k
    · subst hjk
      rw [if_pos rfl, if_pos rfl]
      exact ⟨hi, hkey⟩
    · rw [if_neg (by omega), if_neg hjk]
      exact hf j (by omega)

theorem findIndex_ok {c : OCore} {T : OTab} {x : List Byte} {pos : Nat} (h8 : pos % 8 = 0)
    (hr : ORep c T x pos) (hh : OHashed T x pos) (hl : OLoaded c x pos) :
    ∃ c', findIndex c = some c' ∧ ORep c' T x pos ∧ OLoaded c' x pos ∧ OFound 7 c' T x pos := by
  obtain ⟨c0, e0, r0, l0, f0⟩ := findSlot_ok (k := 0) (by omega) h8 hr hh hl (fun k hk => absurd hk (by omega))
  obtain ⟨c1, e1, r1, l1, f1⟩ := findSlot_ok (k := 1) (by omega) h8 r0 hh l0 f0
  obtain ⟨c2, e2, r2, l2, f2⟩ := findSlot_ok (k := 2) (by omega) h8 r1 hh l1 f1
  obtain ⟨c3, e3, r3, l3, f3⟩ := findSlot_ok (k := 3) (by omega) h8 r2 hh l2 f2
  obtain ⟨c4, e4, r4, l4, f4⟩ := findSlot_ok (k := 4) (by omega) h8 r3 hh l3 f3
  obtain ⟨c5, e5, r5, l5, f5⟩ := findSlot_ok (k := 5) (by omega) h8 r4 hh l4 f4
  obtain ⟨c6, e6, r6, l6, f6⟩ := findSlot_ok (k := 6) (by omega) h8 r5 hh l5 f5
  refine ⟨c6, ?_, r6, l6, f6⟩
  unfold findIndex
  simp only [Option.bind_eq_bind, e0, e1, e2, e3, e4, e5, e6, Option.bind_some]

/-! ## Emitting a template -/

/-- The bits of an operand. -/
noncomputable def srcBits (T : OTab) (x : List Byte) (pos code : Nat) : OptSrc → List Bool
  | .code => bitsOf 5 code
  | .mid => bytesBits (slice x (pos + 2) 4)
  | .dai i => if i < 7 then bytesBits (slice x (pos + slotOff i) (slotSize i))
      else bitsOf (indexBits (slotSize (i - 7)))
        ((T.find x pos (slotSize (i - 7)) (pos + slotOff (i - 7))).getD 0)

/-- Operands of templates. -/
def srcOk : OptSrc → Bool
  | .dai i => i < 14
  | _ => true

theorem slot_fits {k : Nat} (hk : k < 7) : slotOff k + slotSize k ≤ 8 := by
  interval_cases k <;> simp [slotOff, slotSize]

theorem key_setWidth_bits {n : Nat} (hn : SizeOk n) {x : List Byte} {o : Nat} (ho : o + n ≤ x.length) :
    (dataAt x n o).toNat < 2 ^ (8 * n) ∧ bitsOf (8 * n) (dataAt x n o).toNat = bytesBits (slice x o n) := by
  have hw : 8 * n / 8 = n := by omega
  have hk := key_toNat (w := 8 * n) (x := x) (o := o) (by omega) (by omega)
  have hlt := (key (8 * n) x o).isLt
  have hp : 2 ^ (8 * n) ≤ 2 ^ 64 := Nat.pow_le_pow_right (by omega) (by rcases hn with rfl | rfl | rfl <;> omega)
  rw [dataAt_eq hn, BitVec.toNat_setWidth, Nat.mod_eq_of_lt (by omega), hk, hw]
  exact ⟨hlt, rfl⟩

theorem eval_src (e : Endian) {c : OCore} {T : OTab} {x : List Byte} {pos code : Nat} (hc : code < 32)
    (h8 : pos % 8 = 0) (hpos : pos + 8 ≤ x.length) (hr : ORep c T x pos) (hl : OLoaded c x pos)
    (hf : OFound 7 c T x pos) {s : OptSrc} (hs : srcOk s = true) :
    ∃ v, s.eval e code c = some v ∧ v.toNat < 2 ^ srcWidth s ∧
      bitsOf (srcWidth s) v.toNat = srcBits T x pos code s := by
  cases s with
  | code =>
    refine ⟨_, rfl, ?_, ?_⟩
    · simp only [BitVec.toNat_ofNat, srcWidth]; omega
    · simp only [BitVec.toNat_ofNat, srcWidth, srcBits]
      rw [Nat.mod_eq_of_lt (by omega)]
  | mid =>
    obtain ⟨v, hv, hk⟩ := load32_key e (x := x) (o := pos + 2) (by omega)
    have := key_setWidth_bits (n := 4) (by simp [SizeOk]) (x := x) (o := pos + 2) (by omega)
    refine ⟨(key 32 x (pos + 2)).setWidth 64, ?_, this⟩
    simp only [OptSrc.eval, hr.inp, hr.pos, hv, Option.map_some, hk]
  | dai i =>
    simp only [srcOk, decide_eq_true_eq] at hs
    have hev : OptSrc.eval e code c (.dai i) = some (c.dai i) := by
      simp only [OptSrc.eval, arrGet]; rw [if_pos (by omega)]
    rw [hev]
    refine ⟨_, rfl, ?_⟩
    by_cases h7 : i < 7
    · have hfit := slot_fits h7
      have hkb := key_setWidth_bits (slotSize_ok h7) (x := x) (o := pos + slotOff i) (by omega)
      have hw : srcWidth (.dai i) = 8 * slotSize i := by interval_cases i <;> rfl
      simp only [srcBits]
      rw [hl i h7, hw, if_pos h7]
      exact hkb
    · obtain ⟨k, rfl⟩ : ∃ k, i = 7 + k := ⟨i - 7, by omega⟩
      have hk : k < 7 := by omega
      have hw : srcWidth (.dai (7 + k)) = indexBits (slotSize k) := by interval_cases k <;> rfl
      simp only [srcBits]
      rw [(hf k hk).1, hw, if_neg h7, Nat.add_sub_cancel_left]
      have hi : (T.find x pos (slotSize k) (pos + slotOff k)).getD 0 < 2 ^ indexBits (slotSize k) := by
        have hfit := slot_fits hk
        cases hfd : T.find x pos (slotSize k) (pos + slotOff k) with
        | none => exact Nat.two_pow_pos _
        | some i => exact (hit_sound (slotSize_ok hk) h8 (by omega) (by omega) hfd).1
      have hi' : (T.find x pos (slotSize k) (pos + slotOff k)).getD 0 < 2 ^ 64 := by
        refine lt_of_lt_of_le hi (Nat.pow_le_pow_right (by omega) ?_)
        interval_cases k <;> simp [slotSize, indexBits]
      rw [BitVec.toNat_ofNat, Nat.mod_eq_of_lt hi']
      exact ⟨hi, rfl⟩

def headOk (o : Nat) : Action → OptSrc → Bool
  | .D n, .dai k => k < 7 && slotSize k == n && slotOff k == o
  | .D n, .mid => n == 4 && o == 2
  | .I n, .dai i => 7 ≤ i && i < 14 && slotSize (i - 7) == n && slotOff (i - 7) == o
  | _, _ => false

/-- Offsets of the actions of a template match the operands. -/
def srcOffsOk : List Action → Nat → Bool
  | [], _ => true
  | a :: as, o => headOk o a (actSrc a o) && srcOffsOk as (o + actionSize a)

theorem srcOffsOk_templates : ∀ code, code < 26 → srcOffsOk (templates.getD code []) 0 = true := by
  decide +kernel

theorem actSrcs_bits {T : OTab} {x : List Byte} {pos code : Nat} {acts : List Action} {o : Nat}
    (h : srcOffsOk acts o = true) (hfit : pos + o + sumSizes acts ≤ x.length) :
    (∀ s ∈ actSrcs acts o, srcOk s = true ∧ s ≠ .code) ∧
    (actSrcs acts o).flatMap (srcBits T x pos code) = (T.args x pos acts (pos + o)).flatMap Arg.bits := by
  induction acts generalizing o with
  | nil => exact ⟨by simp [actSrcs], rfl⟩
  | cons a as ih =>
    rw [srcOffsOk, Bool.and_eq_true] at h
    simp only [sumSizes, List.map_cons, List.sum_cons] at hfit
    obtain ⟨i1, i2⟩ := ih h.2 (by unfold sumSizes; omega)
    have hhead : srcOk (actSrc a o) = true ∧ actSrc a o ≠ .code ∧
        srcBits T x pos code (actSrc a o) = (T.arg x pos (pos + o) a).bits := by
      have h1 := h.1
      cases a with
      | D n =>
        simp only [actionSize] at hfit
        have hlen : (slice x (pos + o) n).length = n := length_slice (by omega)
        generalize actSrc (.D n) o = src at h1
        cases src with
        | code => simp [headOk] at h1
        | mid =>
          simp only [headOk, Bool.and_eq_true, beq_iff_eq] at h1
          obtain ⟨rfl, rfl⟩ := h1
          refine ⟨rfl, by simp, ?_⟩
          simp only [srcBits, OTab.arg, Arg.bits]
        | dai k =>
          simp only [headOk, Bool.and_eq_true, beq_iff_eq, decide_eq_true_eq] at h1
          obtain ⟨⟨hk, rfl⟩, rfl⟩ := h1
          refine ⟨by simp [srcOk]; omega, by simp, ?_⟩
          simp only [srcBits, OTab.arg, Arg.bits]
          rw [if_pos hk]
      | I n =>
        generalize actSrc (.I n) o = src at h1
        cases src with
        | code => simp [headOk] at h1
        | mid => simp [headOk] at h1
        | dai i =>
          simp only [headOk, Bool.and_eq_true, beq_iff_eq, decide_eq_true_eq] at h1
          obtain ⟨⟨⟨h7, h14⟩, rfl⟩, rfl⟩ := h1
          refine ⟨by simp [srcOk]; omega, by simp, ?_⟩
          simp only [srcBits, OTab.arg, Arg.bits]
          rw [if_neg (by omega)]
    rw [actSrcs, OTab.args, List.flatMap_cons, List.flatMap_cons, hhead.2.2, i2, Nat.add_assoc]
    refine ⟨?_, rfl⟩
    intro s hs
    rcases List.mem_cons.1 hs with rfl | hs
    · exact ⟨hhead.1, hhead.2.1⟩
    · exact i1 s hs

theorem srcWidth_pos (s : OptSrc) : 1 ≤ srcWidth s := by
  cases s with
  | dai i => simp only [srcWidth]; split_ifs <;> omega
  | _ => simp [srcWidth]

theorem oaddTemplate_ce (e : Endian) {c : OCore} {T : OTab} {x : List Byte} {pos code : Nat} (hc : code < 26)
    (h8 : pos % 8 = 0) (hpos : pos + 8 ≤ x.length) (hr : ORep c T x pos) (hl : OLoaded c x pos)
    (hf : OFound 7 c T x pos) :
    CE e (oaddTemplate e code) c () c
      (Op.bits (.template code (T.args x pos (templates.getD code []) pos))) := by
  obtain ⟨-, -, hsum, -⟩ := templates_ok _ _ (getD_templates hc)
  unfold oaddTemplate
  refine CE.get_bind' (g := fun c => if code = 0 then do
      liftS (streamWriteBits e 0#64 5)
      liftS (streamWriteBits e (c.dai 6) 64)
    else
      match optRows[code - 1]? with
      | some (n, fields) => do
        let out ← M.access fun _ => orShifted e code c fields
        liftS (streamWriteBits e out n)
      | none => Pure.pure ()) (fun p => rfl) ?_
  by_cases hz : code = 0
  · subst hz
    rw [if_pos rfl]
    have hb : Op.bits (.template 0 (T.args x pos (templates.getD 0 []) pos)) =
        bitsOf 5 (0#64).toNat ++ bitsOf 64 (c.dai 6).toNat := by
      have := key_setWidth_bits (n := 8) (by simp [SizeOk]) (x := x) (o := pos) (by omega)
      rw [hl 6 (by omega)]
      show bitsOf 5 0 ++ (bytesBits (slice x pos 8) ++ []) = _
      rw [List.append_nil, ← this.2]
      rfl
    rw [hb]
    exact .bind (.writeBits (by omega) (by omega) (by simp) c)
      (.writeBits (by omega) (by omega) (BitVec.isLt _) c)
  · rw [if_neg hz]
    obtain ⟨h1, h2, h3⟩ := optRows_ok code (by omega) hc
    rw [h1]
    simp only
    obtain ⟨a1, a2⟩ := actSrcs_bits (T := T) (x := x) (pos := pos) (code := code)
      (srcOffsOk_templates code hc) (by omega)
    obtain ⟨v, hv1, hv2, hv3⟩ := orShifted_pack (e := e) (code := code) (c := c)
      (bits := srcBits T x pos code) (l := .code :: actSrcs (templates.getD code []) 0)
      (fun s hs => eval_src e (by omega) h8 hpos hr hl hf (by
        rcases List.mem_cons.1 hs with rfl | hs
        · rfl
        · exact (a1 s hs).1))
      (by rw [h2]; exact h3) (fun s _ => srcWidth_pos s)
    rw [h2] at hv2 hv3
    refine CE.access_bind (a := v) (fun _ => hv1) ?_
    have hb : Op.bits (.template code (T.args x pos (templates.getD code []) pos)) =
        bitsOf (templateBits (templates.getD code [])) v.toNat := by
      rw [hv3, List.flatMap_cons, a2]; rfl
    rw [hb]
    exact .writeBits (by unfold templateBits; omega) h3 hv2 c

/-! ## `process_next` -/

theorem OTab.args_rehash (T : OTab) (x : List Byte) (pos pos' : Nat) (acts : List Action) :
    ∀ o, (T.rehash x pos).args x pos' acts o = T.args x pos' acts o := by
  induction acts with
  | nil => intro o; rfl
  | cons a as ih =>
      intro o
      show _ :: _ = _ :: _
      rw [ih]
      rfl

/-- The state after lines 438-452 of `process_next` -/
def OCore.clear (c : OCore) : OCore :=
  { c with validity := fun k => if k < 7 then 0#16 else c.validity k
           keys := fun k => if k < 7 then 0#16 else c.keys k }

/-- `process_next` up to the choice of the template -/
theorem oprocessPrep {c : OCore} {T : OTab} {x : List Byte} {pos : Nat}
    (h8 : pos % 8 = 0) (hr : ORep c T x pos) (hl : OLoaded c x pos) :
    ∃ c3, findIndex (hashAll c.clear) = some c3 ∧ ORep c3 (T.rehash x pos) x pos ∧ OLoaded c3 x pos ∧
      OFound 7 c3 (T.rehash x pos) x pos ∧ getTemplate c3.keys = some (codeOf (T.valid x pos)) := by
  have hh : OHashed (T.rehash x pos) x pos := by
    intro k hk
    show (if k < 7 then _ else _) = _
    rw [if_pos hk]
  have hr2 : ORep (hashAll c.clear) (T.rehash x pos) x pos := by
    refine ⟨hr.inp, hr.ilen, ?_, hr.ht16, hr.ht32, hr.ht64, ?_, hr.f16, hr.f32, hr.f64, hr.pos⟩
    · funext k
      show (if k < 4 then hashOne 10 (c.dai k) else if k < 6 then hashOne 11 (c.dai k)
        else if k = 6 then hashOne 10 (c.dai k) else c.hashes k) =
        if k < 7 then hashOne (dictBits (slotSize k)) (dataAt x (slotSize k) (pos + slotOff k)) else T.hashes k
      by_cases hk : k < 7
      · rw [if_pos hk, ← hl k hk]
        interval_cases k <;> rfl
      · rw [if_neg hk, if_neg (by omega), if_neg (by omega), if_neg (by omega), hr.hashes]
    · intro k hk
      rw [hh k hk]
      apply hashOne_lt
      unfold dictBits; split <;> omega
  obtain ⟨c3, e3, r3, l3, f3⟩ := findIndex_ok h8 hr2 hh (c := hashAll c.clear) hl
  have hval : (T.rehash x pos).valid x pos = T.valid x pos := rfl
  obtain ⟨hg, hlt, -, -⟩ := codeOf_ok (T.valid x pos)
  refine ⟨c3, e3, r3, l3, f3, ?_⟩
  rw [← hg]
  unfold getTemplate
  simp only [(f3 0 (by omega)).2, (f3 1 (by omega)).2, (f3 2 (by omega)).2, (f3 3 (by omega)).2,
    (f3 4 (by omega)).2, (f3 5 (by omega)).2, (f3 6 (by omega)).2, hval]

theorem oprocessNext_ce (e : Endian) {c : OCore} {T : OTab} {x : List Byte} {pos : Nat}
    (h8 : pos % 8 = 0) (hpos : pos + 8 ≤ x.length) (hr : ORep c T x pos) (hl : OLoaded c x pos) :
    ∃ c', CE e (oprocessNext e) c () c' (T.blockOp x pos).bits ∧ ORep c' (T.rehash x pos) x pos ∧
      OLoaded c' x pos := by
  obtain ⟨c3, e3, r3, l3, f3, hkeys⟩ := oprocessPrep h8 hr hl
  obtain ⟨-, hlt, -, -⟩ := codeOf_ok (T.valid x pos)
  refine ⟨c3, ?_, r3, l3⟩
  unfold oprocessNext
  refine CE.liftC_bind (c1 := c.clear) rfl (CE.liftC_bind (c1 := hashAll c.clear) rfl (CE.liftC_bind (c1 := c3) e3 ?_))
  refine CE.get_bind' (g := fun c => do
    let templateKey ← M.access fun _ => getTemplate c.keys
    oaddTemplate e templateKey) (fun _ => rfl) ?_
  refine CE.access_bind (a := codeOf (T.valid x pos)) (fun _ => hkeys) ?_
  have h := oaddTemplate_ce (T := T.rehash x pos) e hlt h8 hpos r3 l3 f3
  rw [OTab.args_rehash] at h
  exact h

/-! ## Loading a block and updating the dictionaries -/

theorem ogetNextData_ok (e : Endian) {c : OCore} {T : OTab} {x : List Byte} {pos : Nat}
    (hpos : pos + 8 ≤ x.length) (hr : ORep c T x pos) :
    ∃ c', ogetNextData e c = some c' ∧ ORep c' T x pos ∧ OLoaded c' x pos := by
  obtain ⟨v0, h0, k0⟩ := load16_key e (x := x) (o := pos) (by omega)
  obtain ⟨v1, h1, k1⟩ := load16_key e (x := x) (o := pos + 2) (by omega)
  obtain ⟨v2, h2, k2⟩ := load16_key e (x := x) (o := pos + 4) (by omega)
  obtain ⟨v3, h3, k3⟩ := load16_key e (x := x) (o := pos + 6) (by omega)
  obtain ⟨v4, h4, k4⟩ := load32_key e (x := x) (o := pos) (by omega)
  obtain ⟨v5, h5, k5⟩ := load32_key e (x := x) (o := pos + 4) (by omega)
  obtain ⟨v6, h6, k6⟩ := load64_key e (x := x) (o := pos) (by omega)
  have hres : ogetNextData e c = some { c with dai :=
      (upd (upd (upd (upd (upd (upd (upd c.dai 0 ((key 16 x pos).setWidth 64))
      1 ((key 16 x (pos + 2)).setWidth 64)) 2 ((key 16 x (pos + 4)).setWidth 64))
      3 ((key 16 x (pos + 6)).setWidth 64)) 4 ((key 32 x pos).setWidth 64))
      5 ((key 32 x (pos + 4)).setWidth 64)) 6 (key 64 x pos)) } := by
    unfold ogetNextData
    simp only [hr.inp, hr.pos, h0, h1, h2, h3, h4, h5, h6, Option.bind_eq_bind, Option.bind_some,
      k0, k1, k2, k3, k4, k5, k6]
  refine ⟨_, hres, ⟨hr.inp, hr.ilen, hr.hashes, hr.ht16, hr.ht32, hr.ht64, hr.hb, hr.f16, hr.f32, hr.f64,
    hr.pos⟩, ?_⟩
  intro k hk
  interval_cases k <;> rfl

theorem upd_fifo {w : Nat} {fifo : Nat → BitVec w}
    {A : Nat → Option (BitVec w)} (hv : ∀ j v, A j = some v → fifo j = v) (i : Nat) (u : BitVec w) :
    ∀ j v, upd A i (some u) j = some v → upd fifo i u j = v := by
  intro j v h
  unfold upd at h ⊢
  split at h
  · rename_i hj; rw [if_pos hj]; exact Option.some.inj h
  · rename_i hj; rw [if_neg hj]; exact hv j v h

theorem upd_some {w : Nat} {A : Nat → Option (BitVec w)} {ht : Nat → BitVec 16}
    (he : ∀ h, 0 ≤ (ht h).toInt → ∃ v, A (ht h).toNat = some v) (i : Nat) (u : BitVec w) :
    ∀ h, 0 ≤ (ht h).toInt → ∃ v, upd A i (some u) (ht h).toNat = some v := by
  intro h hh
  unfold upd
  split
  · exact ⟨u, rfl⟩
  · exact he h hh

theorem upd_ht {w : Nat} {A : Nat → Option (BitVec w)} {ht : Nat → BitVec 16}
    (he : ∀ h, 0 ≤ (ht h).toInt → ∃ v, A (ht h).toNat = some v) (k i : Nat) (hi : i < 2 ^ 16)
    (hA : ∃ v, A i = some v) :
    ∀ h, 0 ≤ (upd ht k (BitVec.ofNat 16 i) h).toInt → ∃ v, A (upd ht k (BitVec.ofNat 16 i) h).toNat = some v := by
  intro h hh
  unfold upd at hh ⊢
  split
  · rw [BitVec.toNat_ofNat, Nat.mod_eq_of_lt hi]; exact hA
  · rename_i hne
    rw [if_neg hne] at hh
    exact he h hh

theorem dataAt_trunc {n : Nat} (hn : SizeOk n) (x : List Byte) (o : Nat) :
    (dataAt x n o).setWidth (8 * n) = key (8 * n) x o := by
  rw [dataAt_eq hn]
  apply BitVec.eq_of_toNat_eq
  have hlt := (key (8 * n) x o).isLt
  have hp : 2 ^ (8 * n) ≤ 2 ^ 64 := Nat.pow_le_pow_right (by omega) (by rcases hn with rfl | rfl | rfl <;> omega)
  simp only [BitVec.toNat_setWidth]
  rw [Nat.mod_eq_of_lt (show (key (8 * n) x o).toNat < 2 ^ 64 by omega), Nat.mod_eq_of_lt hlt]

theorem oupdateHashtables_ok {c : OCore} {T : OTab} {x : List Byte} {pos : Nat}
    (h8 : pos % 8 = 0) (hr : ORep c T x pos) (hl : OLoaded c x pos) :
    ∃ c', oupdateHashtables c = some c' ∧
      ORep { c' with pos := c'.pos + 8, ilen := c'.ilen - 8 } (T.next pos) x (pos + 8) := by
  have hb := hr.hb
  have t0 := hb 0 (by omega)
  have t1 := hb 1 (by omega)
  have t2 := hb 2 (by omega)
  have t3 := hb 3 (by omega)
  have t4 := hb 4 (by omega)
  have t5 := hb 5 (by omega)
  have t6 := hb 6 (by omega)
  simp only [slotSize, dictBits] at t0 t1 t2 t3 t4 t5 t6
  norm_num at t0 t1 t2 t3 t4 t5 t6
  have d0 : (c.dai 0).setWidth 16 = key 16 x pos := by
    rw [hl 0 (by omega)]; exact dataAt_trunc (n := 2) (by simp [SizeOk]) x pos
  have d1 : (c.dai 1).setWidth 16 = key 16 x (pos + 2) := by
    rw [hl 1 (by omega)]; exact dataAt_trunc (n := 2) (by simp [SizeOk]) x (pos + 2)
  have d2 : (c.dai 2).setWidth 16 = key 16 x (pos + 4) := by
    rw [hl 2 (by omega)]; exact dataAt_trunc (n := 2) (by simp [SizeOk]) x (pos + 4)
  have d3 : (c.dai 3).setWidth 16 = key 16 x (pos + 6) := by
    rw [hl 3 (by omega)]; exact dataAt_trunc (n := 2) (by simp [SizeOk]) x (pos + 6)
  have d4 : (c.dai 4).setWidth 32 = key 32 x pos := by
    rw [hl 4 (by omega)]; exact dataAt_trunc (n := 4) (by simp [SizeOk]) x pos
  have d5 : (c.dai 5).setWidth 32 = key 32 x (pos + 4) := by
    rw [hl 5 (by omega)]; exact dataAt_trunc (n := 4) (by simp [SizeOk]) x (pos + 4)
  have d6 : (c.dai 6).setWidth 64 = key 64 x pos := by
    rw [hl 6 (by omega)]; exact dataAt_trunc (n := 8) (by simp [SizeOk]) x pos
  have i64 : pos >>> 3 % 2 ^ 8 = pos / 8 % 256 := by rw [Nat.shiftRight_eq_div_pow]; rfl
  have i32 : pos >>> 2 % 2 ^ 9 = pos / 4 % 512 := by rw [Nat.shiftRight_eq_div_pow]; rfl
  have i16 : pos >>> 1 % 2 ^ 8 = pos / 2 % 256 := by rw [Nat.shiftRight_eq_div_pow]; rfl
  let i := pos / 2 % 256
  let k := pos / 4 % 512
  have hres : oupdateHashtables c = some { c with
      fifo16 := upd (upd (upd (upd c.fifo16 i (key 16 x pos)) (i + 1) (key 16 x (pos + 2)))
        (i + 2) (key 16 x (pos + 4))) (i + 3) (key 16 x (pos + 6))
      fifo32 := upd (upd c.fifo32 k (key 32 x pos)) (k + 1) (key 32 x (pos + 4))
      fifo64 := upd c.fifo64 (pos / 8 % 256) (key 64 x pos)
      ht16 := (T.next pos).ht16, ht32 := (T.next pos).ht32, ht64 := (T.next pos).ht64 } := by
    unfold oupdateHashtables fifoSet htSet arrSet
    simp only [hr.pos, i64, i32, i16, hr.hashes, d0, d1, d2, d3, d4, d5, d6]
    have j0 : pos / 2 % 256 < 256 := by omega
    have j1 : pos / 2 % 256 + 1 < 256 := by omega
    have j2 : pos / 2 % 256 + 2 < 256 := by omega
    have j3 : pos / 2 % 256 + 3 < 256 := by omega
    have j4 : pos / 4 % 512 < 512 := by omega
    have j5 : pos / 4 % 512 + 1 < 512 := by omega
    have j6 : pos / 8 % 256 < 256 := by omega
    simp only [j0, j1, j2, j3, j4, j5, j6, t0, t1, t2, t3, t4, t5, t6, if_true, Option.bind_eq_bind,
      Option.bind_some, hr.ht16, hr.ht32, hr.ht64]
    rfl
  refine ⟨_, hres, ⟨hr.inp, ?_, hr.hashes, rfl, rfl, rfl, hr.hb, ?_, ?_, ?_, ?_⟩⟩
  · show c.ilen - 8 = x.length - (pos + 8)
    rw [hr.ilen]; omega
  · have hs := slots_next2 x (pos := pos) h8
    refine ⟨?_, ?_⟩
    · rw [hs]
      exact upd_fifo (upd_fifo
        (upd_fifo (upd_fifo hr.f16.val _ _) _ _) _ _) _ _
    · rw [hs]
      have h0 := upd_some (upd_some (upd_some (upd_some hr.f16.ent (pos / 2 % 256) (key 16 x pos))
        (pos / 2 % 256 + 1) (key 16 x (pos + 2))) (pos / 2 % 256 + 2) (key 16 x (pos + 4)))
        (pos / 2 % 256 + 3) (key 16 x (pos + 6))
      refine upd_ht (upd_ht (upd_ht (upd_ht h0 _ _ (by omega) ⟨key 16 x pos, ?_⟩) _ _ (by omega)
        ⟨key 16 x (pos + 2), ?_⟩) _ _ (by omega) ⟨key 16 x (pos + 4), ?_⟩) _ _ (by omega)
        ⟨key 16 x (pos + 6), ?_⟩ <;> simp [upd]
  · have hs := slots_next4 x (pos := pos) h8
    refine ⟨?_, ?_⟩
    · rw [hs]
      exact upd_fifo (upd_fifo hr.f32.val _ _) _ _
    · rw [hs]
      have h0 := upd_some (upd_some hr.f32.ent (pos / 4 % 512) (key 32 x pos))
        (pos / 4 % 512 + 1) (key 32 x (pos + 4))
      refine upd_ht (upd_ht h0 _ _ (by omega) ⟨key 32 x pos, ?_⟩) _ _ (by omega)
        ⟨key 32 x (pos + 4), ?_⟩ <;> simp [upd]
  · have hs := slots_next8 x (pos := pos) h8
    refine ⟨?_, ?_⟩
    · rw [hs]
      exact upd_fifo hr.f64.val _ _
    · rw [hs]
      have h0 := upd_some hr.f64.ent (pos / 8 % 256) (key 64 x pos)
      refine upd_ht h0 _ _ (by omega) ⟨key 64 x pos, ?_⟩
      simp [upd]
  · show c.pos + 8 = pos + 8
    rw [hr.pos]

/-! ## The main loop -/

theorem oaddRepeat_ce (e : Endian) {r : Nat} (h1 : 1 ≤ r) (h64 : r ≤ 64) (c : OCore) :
    CE e (liftS (oaddRepeat e r)) c () c (Op.rep (r - 1)).bits := by
  have hmod : (r + 255) % 2 ^ 8 = r - 1 := by omega
  have hval : ((0x1B#64 <<< 6) ||| BitVec.ofNat 64 ((r + 255) % 2 ^ 8)).toNat = 0x1B * 2 ^ 6 + (r - 1) := by
    rw [hmod]
    have : r - 1 < 64 := by omega
    generalize r - 1 = q at this
    interval_cases q <;> rfl
  have hb : bitsOf 11 (0x1B * 2 ^ 6 + (r - 1)) = (Op.rep (r - 1)).bits := by
    rw [Op.bits, bitsOf_append 5 6]
    congr 1
    · congr 1; rw [Nat.shiftRight_eq_div_pow]; omega
    · rw [← bitsOf_mod, ← bitsOf_mod 6 (r - 1)]; congr 1; omega
  unfold oaddRepeat
  rw [← hb, ← hval]
  exact CE.writeBits (by omega) (by omega) (by rw [hval]; omega) c

/-- What the two configuration dependent functions have to do. -/
structure OConf.Ok (e : Endian) (cf : OConf) : Prop where
  step : ∀ {c : OCore} {T : OTab} {x : List Byte} {pos : Nat}, pos % 8 = 0 → pos + 8 ≤ x.length →
    ORep c T x pos → ∃ c', cf.getNextData c = some c' ∧ ORep c' T x pos ∧ OLoaded c' x pos ∧
      ∃ c'', CE e cf.processNext c' () c'' (T.blockOp x pos).bits ∧ ORep c'' (T.rehash x pos) x pos ∧
        OLoaded c'' x pos

theorem OConf.std_ok (e : Endian) : (OConf.std e).Ok e where
  step h8 hpos hr := by
    obtain ⟨c1, hg1, hr1, hl1⟩ := ogetNextData_ok e hpos hr
    exact ⟨c1, hg1, hr1, hl1, oprocessNext_ce e h8 hpos hr1 hl1⟩

theorem oblock_ce (e : Endian) {cf : OConf} {c : OCore} {T : OTab} {x : List Byte} {pos : Nat} {v : BitVec 64}
    (hproc : ∃ c', CE e cf.processNext c () c' (T.blockOp x pos).bits ∧ ORep c' (T.rehash x pos) x pos ∧
      OLoaded c' x pos) (hr : ORep c T x pos) (hl : OLoaded c x pos)
    (hv : v = 0#64 ↔ slice x pos 8 = List.replicate 8 0#8) :
    ∃ c', CE e (if v = 0#64 then liftS (streamWriteBits e 0x1C#64 5) else cf.processNext) c () c'
        (if slice x pos 8 = List.replicate 8 0#8 then Op.zeros.bits else (T.blockOp x pos).bits) ∧
      ORep c' (if slice x pos 8 = List.replicate 8 0#8 then T else T.rehash x pos) x pos ∧
      OLoaded c' x pos := by
  by_cases h : v = 0#64
  · rw [if_pos h, if_pos (hv.1 h), if_pos (hv.1 h)]
    exact ⟨c, CE.writeBits (by omega) (by omega) (by decide) c, hr, hl⟩
  · rw [if_neg h, if_neg (fun hh => h (hv.2 hh)), if_neg (fun hh => h (hv.2 hh))]
    exact hproc

theorem CE.seq {e : Endian} {α β : Type} {x : M OComp α} {f : α → M OComp β} {c c1 c2 : OCore} {a : α} {b : β}
    {B B' C : List Bool} (h : CE e x c a c1 B) (h' : CE e (f a) c1 b c2 B') (hC : B ++ B' = C) :
    CE e (x >>= f) c b c2 C := hC ▸ h.bind h'

theorem ite_bindO {α β : Type} (c : Prop) [Decidable c] (f g : M OComp α) (k : α → M OComp β) :
    (if c then f >>= k else g >>= k) = (if c then f else g) >>= k := by
  split <;> rfl

theorem ocompStep_ce (e : Endian) {cf : OConf} {c : OCore} {T : OTab} {x : List Byte} {pos : Nat} {v last : BitVec 64}
    {lastO : Option (List Byte)} {rc : Nat}
    (hproc : ∃ c', CE e cf.processNext c () c' (T.blockOp x pos).bits ∧ ORep c' (T.rehash x pos) x pos ∧
      OLoaded c' x pos) (hr : ORep c T x pos) (hl : OLoaded c x pos)
    (hv : v = 0#64 ↔ slice x pos 8 = List.replicate 8 0#8)
    (hlast : v = last ↔ some (slice x pos 8) = lastO) (hrc : rc ≤ 63) :
    ∃ c', CE e (ocompStep cf e v last rc) c (orefStep T x pos lastO rc).2.1 c'
        ((orefStep T x pos lastO rc).1.flatMap Op.bits) ∧
      ORep c' (orefStep T x pos lastO rc).2.2 x pos ∧ OLoaded c' x pos ∧
      (orefStep T x pos lastO rc).2.1 ≤ 63 := by
  unfold ocompStep orefStep
  simp only
  by_cases heq : v = last
  · have heq' := hlast.1 heq
    rw [if_pos heq, if_pos heq', Nat.mod_eq_of_lt (by omega)]
    by_cases hle : rc + 1 ≤ 0x3f
    · rw [if_pos ⟨heq, hle⟩, if_pos hle]
      exact ⟨c, CE.pure _ _, hr, hl, hle⟩
    · rw [if_neg (fun h => hle h.2), if_pos (by omega), if_neg hle]
      refine ⟨c, ?_, hr, hl, Nat.zero_le _⟩
      rw [if_pos heq]
      exact (oaddRepeat_ce e (r := rc + 1) (by omega) (by omega) c).seq (CE.pure 0 c) (by simp)
  · have heq' : ¬ some (slice x pos 8) = lastO := fun h => heq (hlast.2 h)
    rw [if_neg heq, if_neg heq', if_neg (fun h => heq h.1)]
    obtain ⟨c', hem, hr', hl'⟩ := oblock_ce e hproc hr hl hv
    have key : ∀ (A : List Op),
        (if slice x pos 8 = List.replicate 8 0#8 then (A ++ [Op.zeros], 0, T)
          else (A ++ [T.blockOp x pos], 0, T.rehash x pos)) =
        ((A ++ [if slice x pos 8 = List.replicate 8 0#8 then Op.zeros else T.blockOp x pos]), 0,
          if slice x pos 8 = List.replicate 8 0#8 then T else T.rehash x pos) := by
      intro A; split <;> rfl
    rw [key]
    refine ⟨c', ?_, hr', hl', Nat.zero_le _⟩
    simp only [List.flatMap_append, List.flatMap_cons, List.flatMap_nil]
    have hb : (if slice x pos 8 = List.replicate 8 0#8 then Op.zeros else T.blockOp x pos).bits =
        (if slice x pos 8 = List.replicate 8 0#8 then Op.zeros.bits else (T.blockOp x pos).bits) := by
      split <;> rfl
    rw [hb]
    by_cases h0 : rc = 0
    · rw [if_neg (by omega), ite_bindO, repOps, if_pos h0, h0]
      exact hem.seq (CE.pure 0 c') (by simp)
    · rw [if_pos h0, if_neg heq, ite_bindO, repOps, if_neg h0]
      exact (oaddRepeat_ce e (r := rc) (by omega) (by omega) c).seq (hem.bind (CE.pure 0 c')) (by simp)

theorem ocompLoop_ce (e : Endian) {cf : OConf} (hcf : cf.Ok e) (x : List Byte) (m k : Nat) {pos : Nat} {T : OTab} {c : OCore}
    {last : BitVec 64} {lastO : Option (List Byte)} {rc : Nat} (h8 : pos % 8 = 0)
    (hr : ORep c T x pos) (hend : x.length = pos + 8 * k)
    (hlast : pos + 8 ≤ x.length → ∀ v, load64 e x pos = some v → (v = last ↔ some (slice x pos 8) = lastO))
    (hrc : rc ≤ 63) :
    ∃ c' rc' A, CE e (ocompLoop cf e (m + k + 1) last rc) c rc' c' A ∧ rc' ≤ 63 ∧
      (orefLoop x k T pos lastO rc).flatMap Op.bits = A ++ (repOps rc').flatMap Op.bits := by
  induction k generalizing pos T c last lastO rc with
  | zero =>
    refine ⟨c, rc, [], ?_, hrc, by simp [orefLoop]⟩
    unfold ocompLoop
    refine CE.of_ok fun s => ?_
    rw [M.get_bind_apply, if_neg (by simp only [hr.ilen]; omega)]
    rfl
  | succ k ih =>
    obtain ⟨v, hv, hkv⟩ := load64_key e (x := x) (o := pos) (by omega)
    obtain ⟨c1, hg1, hr1, hl1, hproc⟩ := hcf.step h8 (pos := pos) (by omega) hr
    have hz : v = 0#64 ↔ slice x pos 8 = List.replicate 8 0#8 := by
      rw [← key_zero (x := x) (o := pos) (by omega), ← hkv]
      constructor
      · intro h; rw [h, swapBe64_zero]
      · intro h; apply swapBe64_inj (e := e); rw [h, swapBe64_zero]
    obtain ⟨c2, hem2, hr2, hl2, hrc2⟩ := ocompStep_ce e hproc hr1 hl1 hz
      (hlast (by omega) v hv) hrc
    obtain ⟨c3, hg3, hr3⟩ := oupdateHashtables_ok h8 hr2 hl2
    obtain ⟨c5, rc5, A, hem5, hrc5, hbits⟩ := ih (last := v) (lastO := some (slice x pos 8))
      (by omega) hr3 (by omega)
      (fun h u hu => by
        rw [load64_raw e (by omega) (by omega) hu hv, Option.some.injEq]) hrc2
    refine ⟨c5, rc5, (orefStep T x pos lastO rc).1.flatMap Op.bits ++ A, ?_, hrc5, ?_⟩
    · rw [show m + (k + 1) + 1 = (m + k + 1) + 1 by omega, ocompLoop]
      refine CE.get_bind' (g := fun c => if c.ilen > 7 then do
          let next ← M.access fun _ => load64 e c.inp c.pos
          liftC cf.getNextData
          let rc ← ocompStep cf e next last rc
          liftC oupdateHashtables
          liftC fun c => some { c with pos := c.pos + 8, ilen := c.ilen - 8 }
          ocompLoop cf e (m + k + 1) next rc
        else Pure.pure rc) (fun _ => rfl) ?_
      rw [if_pos (by rw [hr.ilen]; omega)]
      refine CE.access_bind (a := v) (fun s => by rw [hr.inp, hr.pos]; exact hv) ?_
      refine CE.liftC_bind hg1 ?_
      refine hem2.bind ?_
      refine CE.liftC_bind hg3 ?_
      exact CE.liftC_bind rfl hem5
    · rw [orefLoop]
      simp only [List.flatMap_append]
      rw [hbits, List.append_assoc]

/-! ## The whole call -/

/-- The bits of a stream of `optsw842_compress`, without padding. -/
noncomputable def ostreamBits (x : List Byte) : List Bool := (orefOps x).flatMap Op.bits ++ trailer x

/-- Everything up to the flush. -/
def ocompPre (cf : OConf) (e : Endian) (addr fuel : Nat) (inp : List Byte) : M OComp Unit := do
  let p ← M.get
  let first ← M.access fun _ => load64 e p.core.inp p.core.pos
  let rc ← ocompLoop cf e fuel (~~~ first) 0
  if rc ≠ 0 then liftS (oaddRepeat e rc) else pure ()
  liftS (streamWriteBits e 0x1E#64 5)
  let crc ← M.access fun _ => crc32be e addr 0#32 inp inp.length
  liftS (streamWriteBits e (crc.setWidth 64) 32)

theorem ocompBody_eq (cf : OConf) (e : Endian) (addr fuel : Nat) (inp : List Byte) :
    ocompBody cf e addr fuel inp = (ocompPre cf e addr fuel inp >>= fun _ => do
      liftS (streamFlush e)
      let p ← M.get
      pure (8 * p.s.ptr)) := by
  have hi : ∀ {α β : Type} (c : Prop) [Decidable c] (f g : M OComp α) (k : α → M OComp β),
      ((if c then f else g) >>= k) = (if c then f >>= k else g >>= k) := by
    intro α β c _ f g k; split <;> rfl
  unfold ocompBody ocompPre
  simp only [M.bind_assoc', hi]

theorem ocompPre_ce (e : Endian) {cf : OConf} (hcf : cf.Ok e) (addr m : Nat) {x : List Byte} (h8 : x.length % 8 = 0) (hne : x ≠ [])
    {c : OCore} (hr : ORep c .init x 0) :
    ∃ c', CE e (ocompPre cf e addr (m + x.length / 8 + 1) x) c () c' (ostreamBits x) := by
  have hpos : 0 < x.length := List.length_pos_iff.2 hne
  have hcrc := crc32be_eq e addr x x.length (Nat.le_refl _)
  rw [List.take_length] at hcrc
  have htr : ∀ c, CE e (liftS (streamWriteBits e 0x1E#64 5) >>= fun _ =>
      M.access (fun _ => crc32be e addr 0#32 x x.length) >>= fun crc =>
      liftS (streamWriteBits e (crc.setWidth 64) 32)) c () c (trailer x) := by
    intro c
    have ht : ((crc x).setWidth 64).toNat = (crc x).toNat := by
      rw [BitVec.toNat_setWidth]
      have := (crc x).isLt
      omega
    have h2 : CE e (liftS (streamWriteBits e ((crc x).setWidth 64) 32)) c () c (bitsOf 32 (crc x).toNat) := by
      rw [← ht]
      exact CE.writeBits (by omega) (by omega) (by rw [ht]; exact (crc x).isLt) c
    exact (CE.writeBits (v := 0x1E#64) (n := 5) (by omega) (by omega) (by decide) c).seq
      (CE.access_bind (a := crc x) (fun _ => hcrc) h2) rfl
  obtain ⟨v, hv, -⟩ := load64_key e (x := x) (o := 0) (by omega)
  obtain ⟨c1, rc1, A, hem, hrc, hbits⟩ := ocompLoop_ce e hcf x m (x.length / 8) (last := ~~~ v)
    (lastO := none) (rc := 0) rfl hr (by omega)
    (fun _ u hu => by
      rw [hv] at hu
      obtain rfl := Option.some.inj hu
      constructor
      · intro h
        have := congrArg (fun t : BitVec 64 => t.getLsbD 0) h
        simp at this
      · intro h; cases h) (by omega)
  refine ⟨c1, ?_⟩
  unfold ocompPre ostreamBits orefOps
  rw [hbits, List.append_assoc]
  refine CE.get_bind' (g := fun c => do
      let first ← M.access fun _ => load64 e c.inp c.pos
      let rc ← ocompLoop cf e (m + x.length / 8 + 1) (~~~ first) 0
      if rc ≠ 0 then liftS (oaddRepeat e rc) else Pure.pure ()
      liftS (streamWriteBits e 0x1E#64 5)
      let crc ← M.access fun _ => crc32be e addr 0#32 x x.length
      liftS (streamWriteBits e (crc.setWidth 64) 32)) (fun _ => rfl) ?_
  refine CE.access_bind (a := v) (fun s => by rw [hr.inp, hr.pos]; exact hv) ?_
  refine hem.bind ?_
  by_cases h0 : rc1 = 0
  · rw [if_neg (fun h => h h0), repOps, if_pos h0]
    exact htr c1
  · rw [if_pos h0, repOps, if_neg h0]
    exact (oaddRepeat_ce e (r := rc1) (by omega) (by omega) c1).seq (htr c1) (by simp)

theorem ORep.start (j : OptJunk) (x buf : List Byte) : ORep (ocompInit j x buf).core .init x 0 := by
  have hneg : ¬ (0 ≤ (-1#16 : BitVec 16).toInt) := by decide
  refine ⟨rfl, rfl, rfl, rfl, rfl, rfl, ?_, ⟨?_, ?_⟩, ⟨?_, ?_⟩, ⟨?_, ?_⟩, rfl⟩
  · intro k hk
    exact Nat.two_pow_pos _
  all_goals first
    | (intro h hh; exact absurd hh hneg)
    | (intro i v h; rw [slots_zero _ _ (by simp [SizeOk])] at h; cases h)

/-- What the call returns if the main part ends with `o`. -/
def ocompRet (o : Outcome OComp Nat) : Call :=
  match o with
  | .ok n p => .ret none n p.s.buf
  | .err er p => .ret (some er) 0 p.s.buf
  | .ub => .ub
  | .timeout => .timeout

/-- The complete behaviour of the main part, in either configuration. -/
theorem ocompBody_res (e : Endian) {cf : OConf} (hcf : cf.Ok e) (m ain : Nat) (j : OptJunk)
    {x : List Byte} (buf : List Byte) (h8 : x.length % 8 = 0) (hne : x ≠ []) :
    ∃ b, b.length = buf.length ∧
      if paddedSize (ostreamBits x).length ≤ buf.length then
        ocompRet (ocompBody cf e ain (m + x.length / 8 + 1) x (ocompInit j x buf)) =
            .ret none (paddedSize (ostreamBits x).length) b ∧
          bytesBits (b.take (paddedSize (ostreamBits x).length)) = ostreamBits x ++
            List.replicate (8 * paddedSize (ostreamBits x).length - (ostreamBits x).length) false ∧
          b.drop (paddedSize (ostreamBits x).length) = buf.drop (paddedSize (ostreamBits x).length)
      else ocompRet (ocompBody cf e ain (m + x.length / 8 + 1) x (ocompInit j x buf)) = .ret (some .ENOSPC) 0 b := by
  obtain ⟨c', ws, hok, hws, hrun⟩ := ocompPre_ce e hcf ain m h8 hne (ORep.start j x buf)
  have hrun := hrun (streamOpen buf)
  have hs0 := streamOpen_ok buf
  have hw0 := streamOpen_written buf
  have hend : (streamOpen buf).endw = buf.length / 8 := rfl
  have hinit : ocompInit j x buf = ⟨(ocompInit j x buf).core, streamOpen buf⟩ := rfl
  rw [ocompBody_eq, hinit]
  generalize ostreamBits x = B at *
  have hpad : paddedSize B.length ≤ buf.length ↔ (B.length + 63) / 64 ≤ buf.length / 8 := by
    unfold paddedSize; omega
  by_cases hfit1 : B.length / 64 ≤ buf.length / 8
  · obtain ⟨s1, hwr, hs1, he1, hw1⟩ := writeAll_ok (e := e) hok hs0 (by rw [hw0, hws, hend]; simpa using hfit1)
    rw [hw0, List.nil_append, hws] at hw1
    have hx := hrun.1 s1 hwr
    rw [M.bind_ok hx]
    by_cases hfit : (B.length + 63) / 64 ≤ buf.length / 8
    · obtain ⟨s2, hfl, hl2, hp2, htail, hbits⟩ := streamFlush_ok (e := e) hs1 (by rw [hw1, he1, hend]; exact hfit)
      rw [hw1] at hbits hp2
      have hps : paddedSize B.length = 8 * s2.ptr := by rw [hp2]; rfl
      have hL : liftS (streamFlush e) (⟨c', s1⟩ : OComp) = .ok () ⟨c', s2⟩ := by
        unfold liftS; simp only [hfl]
      refine ⟨s2.buf, hl2, ?_⟩
      rw [if_pos (hpad.2 hfit), hps]
      refine ⟨?_, ?_, htail⟩
      · rw [M.bind_ok hL]; rfl
      · rw [hbits]; congr 2; omega
    · obtain ⟨s2, hfl, hl2⟩ := streamFlush_full (e := e) hs1 (by rw [hw1, he1, hend]; omega)
      have hL : liftS (streamFlush e) (⟨c', s1⟩ : OComp) = .err .ENOSPC ⟨c', s2⟩ := by
        unfold liftS; simp only [hfl]
      refine ⟨s2.buf, hl2, ?_⟩
      rw [if_neg (fun h => hfit (hpad.1 h)), M.bind_err hL]; rfl
  · obtain ⟨s1, hwr, hl1⟩ := writeAll_full (e := e) hok hs0 (by rw [hw0, hws, hend]; simp; omega)
    obtain ⟨c'', hx⟩ := hrun.2 _ s1 hwr
    refine ⟨s1.buf, hl1, ?_⟩
    rw [if_neg (fun h => hfit1 (by have := hpad.1 h; omega)), M.bind_err hx]; rfl

/-- The complete behaviour of `optsw842_compress` on aligned buffers and a
non-empty input whose size is a multiple of 8. -/
theorem optCompressF_eq (e : Endian) (m : Nat) {ain aout : Nat} (j : OptJunk) (jsw : CompJunk)
    {x : List Byte} (buf : List Byte) (hal : ain % 8 = 0 ∧ aout % 8 = 0) (h8 : x.length % 8 = 0) (hne : x ≠ []) :
    ∃ b, b.length = buf.length ∧
      if paddedSize (ostreamBits x).length ≤ buf.length then
        optsw842CompressF (m + x.length / 8 + 1) e ain aout j jsw x buf =
            .ret none (paddedSize (ostreamBits x).length) b ∧
          bytesBits (b.take (paddedSize (ostreamBits x).length)) = ostreamBits x ++
            List.replicate (8 * paddedSize (ostreamBits x).length - (ostreamBits x).length) false ∧
          b.drop (paddedSize (ostreamBits x).length) = buf.drop (paddedSize (ostreamBits x).length)
      else optsw842CompressF (m + x.length / 8 + 1) e ain aout j jsw x buf = .ret (some .ENOSPC) 0 b := by
  have h : optsw842CompressF (m + x.length / 8 + 1) e ain aout j jsw x buf =
      ocompRet (ocompBody (.std e) e ain (m + x.length / 8 + 1) x (ocompInit j x buf)) := by
    unfold optsw842CompressF
    rw [if_neg (by omega), if_neg (by omega)]
    rfl
  rw [h]
  exact ocompBody_res e (OConf.std_ok e) m ain j buf h8 hne

/-- Empty aligned input: the first 8 bytes are read although there are none. -/
theorem optCompressF_nil (e : Endian) (m : Nat) {ain aout : Nat} (j : OptJunk) (jsw : CompJunk)
    (buf : List Byte) (hal : ain % 8 = 0 ∧ aout % 8 = 0) :
    optsw842CompressF m e ain aout j jsw [] buf = .ub := by
  unfold optsw842CompressF
  rw [if_neg (by simp), if_neg (by omega)]
  have : ocompBody (.std e) e ain m [] (ocompInit j [] buf) = .ub := by
    unfold ocompBody
    rw [M.get_bind_apply]
    cases e <;> rfl
  rw [this]

end Lib842
