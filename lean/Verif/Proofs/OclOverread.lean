import Verif.Proofs.OclLaunch
import Verif.Proofs.Ocl
/-!
# Where a work item accesses memory, whatever it reads

Stores and all reads whose values matter are inside the capacity; the other reads go at most two bytes beyond.
-/

namespace Lib842
open Spec

/-- All accesses are below `L`, whatever is read, but reads whose values do not matter may go two bytes beyond; results
satisfy `post`. -/
def Narrow {α : Type} (L : Nat) (post : α → Prop) : MemProg α → Prop
  | .ret a => post a
  | .ub => True
  | .read i k f => (i + k ≤ L ∨ (i + k ≤ L + 2 ∧ ∀ bs bs', bs.length = k → bs'.length = k → f bs = f bs')) ∧
      ∀ bs, bs.length = k → Narrow L post (f bs)
  | .write i bs m => i + bs.length ≤ L ∧ Narrow L post m

theorem Narrow.bind {α β : Type} {L : Nat} {P : α → Prop} {Q : β → Prop} {m : MemProg α} {f : α → MemProg β}
    (h : Narrow L P m) (hf : ∀ a, P a → Narrow L Q (f a)) : Narrow L Q (m.bind f) := by
  induction m with
  | ret a => exact hf a h
  | ub => trivial
  | read i k g ih =>
    refine ⟨?_, fun bs hbs => ih bs (h.2 bs hbs)⟩
    rcases h.1 with h1 | ⟨h1, h2⟩
    · exact .inl h1
    · exact .inr ⟨h1, fun bs bs' hb hb' => by show (g bs).bind f = (g bs').bind f; rw [h2 bs bs' hb hb']⟩
  | write i bs m ih => exact ⟨h.1, ih h.2⟩

theorem Narrow.mono {α : Type} {L : Nat} {P Q : α → Prop} {m : MemProg α} (h : Narrow L P m) (hf : ∀ a, P a → Q a) :
    Narrow L Q m := by
  induction m with
  | ret a => exact hf a h
  | ub => trivial
  | read i k g ih => exact ⟨h.1, fun bs hbs => ih bs (h.2 bs hbs)⟩
  | write i bs m ih => exact ⟨h.1, ih h.2⟩

/-- A computation that is narrow does the same on its slot alone, whatever happens to the bytes behind it. -/
theorem Narrow.does {α : Type} {L : Nat} {P : α → Prop} {m : MemProg α} (h : Narrow L P m) {slot z b : List Byte} {a : α}
    (hL : L ≤ slot.length) (hr : m.run (slot ++ z) = some (a, b)) :
    ∃ y, b = y ++ z ∧ y.length = slot.length ∧ Does (L + 2) m slot a y := by
  induction m generalizing slot with
  | ret a' =>
    simp only [MemProg.run, Option.some.injEq, Prod.mk.injEq] at hr
    obtain ⟨rfl, rfl⟩ := hr
    exact ⟨slot, rfl, rfl, .ret⟩
  | ub => cases hr
  | read i k f ih =>
    simp only [MemProg.run] at hr
    cases hb : readBytes (slot ++ z) i k with
    | none => rw [hb] at hr; cases hr
    | some bs =>
      rw [hb] at hr
      simp only at hr
      have hlen : bs.length = k := Codes.length_readBytes hb
      obtain ⟨y, h1, h2, h3⟩ := ih bs (h.2 bs hlen) hL hr
      refine ⟨y, h1, h2, ?_⟩
      rcases h.1 with h4 | ⟨h4, h5⟩
      · refine .read ?_ h3
        rw [readBytes_ok (by omega)]
        rw [readBytes_ok (by rw [List.length_append]; omega)] at hb
        rw [← hb, List.drop_append_of_le_length (by omega), List.take_append_of_le_length (by rw [List.length_drop]; omega)]
      · exact .over h4 fun bs' hbs' => by rw [h5 bs' bs hbs' hlen]; exact h3
  | write i bs m ih =>
    simp only [MemProg.run] at hr
    have hle := h.1
    rw [writeBytes_ok (by rw [List.length_append]; omega)] at hr
    simp only at hr
    rw [List.take_append_of_le_length (by omega), List.drop_append_of_le_length (by omega), ← List.append_assoc] at hr
    obtain ⟨y, h1, h2, h3⟩ := ih h.2 (slot := slot.take i ++ bs ++ slot.drop (i + bs.length))
      (by simp only [List.length_append, List.length_take, List.length_drop]; omega) hr
    refine ⟨y, h1, ?_, .write (writeBytes_ok (by omega)) h3⟩
    rw [h2]
    simp only [List.length_append, List.length_take, List.length_drop]; omega

/-- What holds of the state after a normal return. -/
def okPost {α : Type} (Q : α → OclP → Prop) : Outcome OclP α → Prop
  | .ok a q => Q a q
  | _ => True

theorem OM.narrow_bind {α β : Type} {L : Nat} {x : OM α} {f : α → OM β} {q : OclP} {P : α → OclP → Prop}
    {Q : β → OclP → Prop} (h : Narrow L (okPost P) (x q)) (hf : ∀ a q', P a q' → Narrow L (okPost Q) (f a q')) :
    Narrow L (okPost Q) ((x >>= f) q) := by
  refine Narrow.bind h fun o ho => ?_
  cases o with
  | ok a q' => exact hf a q' ho
  | err => trivial
  | ub => trivial
  | timeout => trivial

/-- The fields that matter here. -/
structure SameOut (q q' : OclP) : Prop where
  src : q'.src = q.src
  out : q'.out = q.out
  olen : q'.olen = q.olen

theorem SameOut.refl (q : OclP) : SameOut q q := ⟨rfl, rfl, rfl⟩
theorem SameOut.trans {q q' q'' : OclP} (h : SameOut q q') (h' : SameOut q' q'') : SameOut q q'' :=
  ⟨h'.src.trans h.src, h'.out.trans h.out, h'.olen.trans h.olen⟩

theorem nar_opt {α : Type} {L : Nat} (o : Option α) (q : OclP) : Narrow L (okPost fun _ q' => q' = q) (OM.opt o q) := by
  cases o with
  | none => trivial
  | some a => exact rfl

theorem nar_fetch {L : Nat} (e : Endian) (k : Nat) {q : OclP} (hs : q.src ≠ none) :
    Narrow L (okPost fun _ q' => q' = q) (oclFetchP e k q) := by
  show Narrow L _ ((if (q.word + k) * 8 < q.ilen then (match q.src with
    | some inp => OM.opt ((load64 e inp (8 * (q.ioff + q.word + k))).map (swapBe64 e))
    | none => _) else pure 0#64 : OM (BitVec 64)) q)
  split
  · cases hq : q.src with
    | none => exact absurd hq hs
    | some inp => exact nar_opt _ q
  · exact rfl

theorem nar_shift {L : Nat} (e : Endian) {q : OclP} (hs : q.src ≠ none) :
    Narrow L (okPost fun _ q' => SameOut q q') (oclShiftP e q) := by
  refine OM.narrow_bind (nar_fetch e 6 hs) fun w q' hq => ?_
  subst hq
  have hg : ∀ la : List (BitVec 64), Narrow L (okPost fun _ q'' => SameOut q' q'') ((match la with
    | [l0, l1, l2, l3, l4, l5] => do
      OM.modify fun p => { p with la := [l1, l2, l3, l4, l5, w] }
      pure l0
    | _ => OM.opt none : OM (BitVec 64)) q') := by
    intro la
    rcases la with _ | ⟨l0, _ | ⟨l1, _ | ⟨l2, _ | ⟨l3, _ | ⟨l4, _ | ⟨l5, _ | ⟨l6, t⟩⟩⟩⟩⟩⟩⟩
    case cons.cons.cons.cons.cons.cons.nil => exact ⟨rfl, rfl, rfl⟩
    all_goals trivial
  exact hg q'.la

theorem nar_readBits {L : Nat} (e : Endian) (n : Nat) {q : OclP} (hs : q.src ≠ none) :
    Narrow L (okPost fun _ q' => SameOut q q') (oclReadBitsP e n q) := by
  show Narrow L _ ((if q.bits < n then if (q.word + 1) * 8 > q.ilen then _ else _ else _ : OM (BitVec 64)) q)
  split
  · split
    · trivial
    · refine OM.narrow_bind (nar_shift e hs) fun w q' hq => ?_
      refine OM.narrow_bind (P := fun _ q' => SameOut q q') (x := OM.modify _) ⟨hq.src, hq.out, hq.olen⟩ fun _ q2 h2 => ?_
      refine OM.narrow_bind (nar_opt _ _) fun r q3 h3 => ?_
      subst h3
      exact ⟨h2.src, h2.out, h2.olen⟩
  · refine OM.narrow_bind (nar_opt _ _) fun r q3 h3 => ?_
    subst h3
    exact ⟨rfl, rfl, rfl⟩

theorem nar_getIndex {L : Nat} (size index fsize : Nat) (q : OclP) :
    Narrow L (okPost fun o q' => q' = q ∧ o + size ≤ 8 * q.out) (oclGetIndexP size index fsize q) := by
  show Narrow L _ ((if indexOffset index size fsize (q.out * 8) + size > q.out * 8 then OM.fail .EINVAL
    else pure (indexOffset index size fsize (q.out * 8)) : OM Nat) q)
  split
  · trivial
  · exact ⟨rfl, by omega⟩

/-- The second word does not matter for two bytes. -/
theorem ref2_shift (a b b' : BitVec 16) :
    oclShr (oclShl (a.setWidth 64) 48 ||| oclShl (b.setWidth 64) 32) (64 - ((2 <<< 3 : Nat) : Int)) =
      oclShr (oclShl (a.setWidth 64) 48 ||| oclShl (b'.setWidth 64) 32) (64 - ((2 <<< 3 : Nat) : Int)) := by
  have key : ∀ b : BitVec 16,
      (oclShr (oclShl (a.setWidth 64) 48 ||| oclShl (b.setWidth 64) 32) (64 - ((2 <<< 3 : Nat) : Int))).toNat = a.toNat := by
    intro b
    have s48 : ∀ x, oclShl x 48 = x <<< 48 := fun x => rfl
    have s32 : ∀ x, oclShl x 32 = x <<< 32 := fun x => rfl
    rw [s48, s32, oclShr_eq (m := 48) (by decide) (by omega), BitVec.toNat_ushiftRight]
    have hA := a.isLt
    have hB := b.isLt
    rw [BitVec.toNat_or, BitVec.toNat_shiftLeft, BitVec.toNat_shiftLeft, BitVec.toNat_setWidth,
      BitVec.toNat_setWidth, Nat.mod_eq_of_lt (a := a.toNat) (by omega),
      Nat.mod_eq_of_lt (a := b.toNat) (by omega),
      Nat.mod_eq_of_lt (by rw [Nat.shiftLeft_eq]; omega), Nat.mod_eq_of_lt (by rw [Nat.shiftLeft_eq]; omega),
      Nat.shiftLeft_eq, Nat.shiftLeft_eq]
    have : a.toNat * 2 ^ 48 = 2 ^ 48 * a.toNat := Nat.mul_comm _ _
    rw [this, ← Nat.two_pow_add_eq_or_of_lt (by omega), Nat.shiftRight_eq_div_pow]
    omega
  exact BitVec.eq_of_toNat_eq ((key b).trans (key b').symm)

theorem nar_ref {L : Nat} (e : Endian) {dst offset : Nat} {q : OclP} (hd : dst = 2 ∨ dst = 4)
    (ho : offset + dst ≤ L) : Narrow L (okPost fun _ q' => q' = q) (oclRefP e dst offset q) := by
  have hsh : 2 * (offset >>> 1) ≤ offset := by rw [Nat.shiftRight_eq_div_pow]; omega
  have e2 : 2 * (offset >>> 1 + 1) = 2 * (offset >>> 1) + 2 := by omega
  have hval : ∀ bs : List Byte, bs.length = 2 → ∃ v, load16 e bs 0 = some v := fun bs hbs => by
    obtain ⟨v, hv, _⟩ := load16_val e (m := bs) (i := 0) (by omega)
    exact ⟨v, hv⟩
  refine OM.narrow_bind (x := OM.load (2 * (offset >>> 1)) 2) (P := fun _ q' => q' = q)
    ⟨.inl (by rcases hd with rfl | rfl <;> omega), fun bs hbs => rfl⟩ fun a q' hq => ?_
  subst hq
  refine OM.narrow_bind (nar_opt _ _) fun a q'' hq => ?_
  subst hq
  rcases hd with rfl | rfl
  · refine ⟨.inr ⟨by omega, fun bs bs' hb hb' => ?_⟩, fun bs hbs => ?_⟩
    · obtain ⟨v, hv⟩ := hval bs hb
      obtain ⟨v', hv'⟩ := hval bs' hb'
      show (OM.opt (load16 e bs 0) >>= _) q'' = (OM.opt (load16 e bs' 0) >>= _) q''
      rw [hv, hv']
      show MemProg.ret (Outcome.ok _ _) = MemProg.ret (Outcome.ok _ _)
      rw [ref2_shift (swapBe16 e a) (swapBe16 e v) (swapBe16 e v')]
    · obtain ⟨v, hv⟩ := hval bs hbs
      show Narrow L _ ((OM.opt (load16 e bs 0) >>= _) q'')
      rw [hv]
      exact rfl
  · refine ⟨.inl (by omega), fun bs hbs => ?_⟩
    obtain ⟨v, hv⟩ := hval bs hbs
    show Narrow L _ ((OM.opt (load16 e bs 0) >>= _) q'')
    rw [hv]
    exact rfl

theorem nar_field {L : Nat} (e : Endian) (params : BitVec 64) {isIndex dst : Nat} (numBits : Nat)
    (l : Nat × BitVec 64 × Nat) {q : OclP} (hd : isIndex ≠ 0 → dst = 2 ∨ dst = 4) (hL : 8 * q.out ≤ L) :
    Narrow L (okPost fun _ q' => q' = q) (oclFieldP e params isIndex dst numBits l q) := by
  unfold oclFieldP
  simp only
  split
  · rename_i h
    refine OM.narrow_bind (nar_getIndex _ _ _ _) fun o q' hq => ?_
    obtain ⟨rfl, ho⟩ := hq
    refine OM.narrow_bind (nar_ref e (hd h) (by omega)) fun o q'' hq => ?_
    subst hq
    exact rfl
  · exact rfl

theorem nar_fields {L : Nat} (e : Endian) (params : BitVec 64) (fs : List (Nat × Nat × Nat)) (l : Nat × BitVec 64 × Nat)
    {q : OclP} (hd : ∀ f ∈ fs, f.1 ≠ 0 → f.2.1 = 2 ∨ f.2.1 = 4) (hL : 8 * q.out ≤ L) :
    Narrow L (okPost fun _ q' => q' = q) (oclFieldsP e params fs l q) := by
  induction fs generalizing l q with
  | nil => exact rfl
  | cons f fs ih =>
    refine OM.narrow_bind (nar_field e params f.2.2 l (hd f (List.mem_cons_self ..)) hL) fun l' q' hq => ?_
    subst hq
    exact ih l' (fun g hg => hd g (List.mem_cons_of_mem _ hg)) hL

theorem nar_put {L : Nat} {bs : List Byte} (hbs : bs.length = 8) {q : OclP} (hL : 8 * (q.out + 1) ≤ L) :
    Narrow L (okPost fun _ q' => q'.src = q.src ∧ q'.out = q.out + 1 ∧ q'.olen = q.olen) (oclPutP bs q) :=
  ⟨by rw [hbs]; omega, rfl, rfl, rfl⟩

theorem nar_room {L k : Nat} {q : OclP} (hL : 8 * (q.olen / 8) ≤ L) :
    Narrow L (okPost fun _ q' => q' = q ∧ 8 * (q.out + k) ≤ L) (oclRoomP k q) := by
  show Narrow L _ ((if q.out * 8 + k * 8 > q.olen then OM.fail .ENOSPC else pure () : OM Unit) q)
  split
  · trivial
  · exact ⟨rfl, by omega⟩

/-- What holds between the ops. -/
structure NarInv (L : Nat) (q : OclP) : Prop where
  src : q.src ≠ none
  out : 8 * q.out ≤ L
  olen : 8 * (q.olen / 8) ≤ L

theorem NarInv.same {L : Nat} {q q' : OclP} (h : NarInv L q) (hs : SameOut q q') : NarInv L q' :=
  ⟨by rw [hs.src]; exact h.src, by rw [hs.out]; exact h.out, by rw [hs.olen]; exact h.olen⟩

theorem nar_put' {L : Nat} {bs : List Byte} {q : OclP} (h : NarInv L q) (hbs : bs.length = 8)
    (hL : 8 * (q.out + 1) ≤ L) : Narrow L (okPost fun _ q' => NarInv L q') (oclPutP bs q) := by
  refine (nar_put hbs hL).mono fun o ho => ?_
  cases o with
  | ok a q' =>
    obtain ⟨h1, h2, h3⟩ := ho
    exact ⟨by rw [h1]; exact h.src, by rw [h2]; exact hL, by rw [h3]; exact h.olen⟩
  | err => trivial
  | ub => trivial
  | timeout => trivial

theorem length_wordBytes64' (e : Endian) (v : BitVec 64) : (wordBytes64 e v).length = 8 := by cases e <;> rfl

theorem row_dst : ∀ op, op < 25 → ∀ f ∈ oclRow op, f.1 ≠ 0 → f.2.1 = 2 ∨ f.2.1 = 4 := by decide +kernel

theorem nar_doOp {L : Nat} (e : Endian) {op : Nat} (hop : op ≠ 25) {q : OclP} (h : NarInv L q) :
    Narrow L (okPost fun _ q' => NarInv L q') (oclDoOpP e op q) := by
  unfold oclDoOpP
  split
  · trivial
  · refine OM.narrow_bind (nar_readBits e _ h.src) fun params q1 h1 => ?_
    have i1 := h.same h1
    refine OM.narrow_bind (nar_fields e params _ _ (row_dst op (by omega)) i1.out) fun l q2 h2 => ?_
    subst h2
    refine OM.narrow_bind (nar_room (k := 1) i1.olen) fun _ q3 h3 => ?_
    obtain ⟨rfl, hr⟩ := h3
    exact nar_put' i1 (length_wordBytes64' _ _) hr

theorem nar_repeat {L : Nat} (k : Nat) {q : OclP} (h : NarInv L q) (hL : 8 * (q.out + k) ≤ L) :
    Narrow L (okPost fun _ q' => NarInv L q') (oclRepeatP k q) := by
  induction k generalizing q with
  | zero => exact h
  | succ k ih =>
    show Narrow L _ ((if q.out = 0 then (OM.opt none >>= fun bs => _) else (OM.load (8 * (q.out - 1)) 8 >>= fun bs =>
      oclPutP bs >>= fun _ => oclRepeatP k) : OM Unit) q)
    split
    · trivial
    · rename_i h0
      have := h.out
      refine OM.narrow_bind (x := OM.load (8 * (q.out - 1)) 8) (P := fun bs q' => q' = q ∧ bs.length = 8)
        ⟨.inl (by omega), fun bs hbs => ⟨rfl, hbs⟩⟩ fun bs q' hq => ?_
      obtain ⟨rfl, hbs⟩ := hq
      refine OM.narrow_bind (nar_put hbs (by omega)) fun _ q2 h2 => ?_
      obtain ⟨h3, h4, h5⟩ := h2
      exact ih ⟨by rw [h3]; exact h.src, by rw [h4]; omega, by rw [h5]; exact h.olen⟩ (by rw [h4]; omega)

theorem nar_iter {L : Nat} (e : Endian) {q : OclP} (h : NarInv L q) :
    Narrow L (okPost fun _ q' => NarInv L q') (oclIterP e q) := by
  refine OM.narrow_bind (nar_readBits e _ h.src) fun op q1 h1 => ?_
  have i1 := h.same h1
  split
  · refine OM.narrow_bind (nar_readBits e _ i1.src) fun rep q2 h2 => ?_
    have i2 := i1.same h2
    show Narrow L _ ((if q2.out = 0 then OM.fail .EINVAL else (oclRoomP (rep.toNat + 1) >>= fun _ =>
      oclRepeatP (rep.toNat + 1) >>= fun _ => pure false) : OM Bool) q2)
    split
    · trivial
    · refine OM.narrow_bind (nar_room i2.olen) fun _ q3 h3 => ?_
      obtain ⟨rfl, hr⟩ := h3
      exact OM.narrow_bind (nar_repeat _ i2 hr) fun _ q4 h4 => h4
  split
  · refine OM.narrow_bind (nar_room (k := 1) i1.olen) fun _ q3 h3 => ?_
    obtain ⟨rfl, hr⟩ := h3
    exact OM.narrow_bind (nar_put' i1 (by simp) hr) fun _ q4 h4 => h4
  split
  · exact i1
  split
  · refine OM.narrow_bind (nar_readBits e _ i1.src) fun value q2 h2 => ?_
    have i2 := i1.same h2
    refine OM.narrow_bind (nar_getIndex _ _ _ _) fun o q3 h3 => ?_
    obtain ⟨rfl, ho⟩ := h3
    refine OM.narrow_bind (nar_room (k := 1) i2.olen) fun _ q4 h4 => ?_
    obtain ⟨rfl, hr⟩ := h4
    have := i2.out
    have hsh : 8 * (o >>> 3) ≤ o := by rw [Nat.shiftRight_eq_div_pow]; omega
    refine OM.narrow_bind (x := OM.load (8 * (o >>> 3)) 8) (P := fun bs q' => q' = q4 ∧ bs.length = 8)
      ⟨.inl (by omega), fun bs hbs => ⟨rfl, hbs⟩⟩ fun bs q' hq => ?_
    obtain ⟨rfl, hbs⟩ := hq
    exact OM.narrow_bind (nar_put' i2 hbs hr) fun _ q4 h4 => h4
  · rename_i hne
    exact OM.narrow_bind (nar_doOp e (by simpa using hne) i1) fun _ q4 h4 => h4

theorem nar_doWhile {L : Nat} {x : OM Bool} (hx : ∀ q, NarInv L q → Narrow L (okPost fun _ q' => NarInv L q') (x q))
    (fuel : Nat) {q : OclP} (h : NarInv L q) : Narrow L (okPost fun _ q' => NarInv L q') (OM.doWhile x fuel q) := by
  induction fuel generalizing q with
  | zero => trivial
  | succ fuel ih =>
    refine OM.narrow_bind (hx q h) fun done q' h' => ?_
    split
    · exact h'
    · exact ih h'

theorem nar_init {L : Nat} (e : Endian) {q : OclP} (h : NarInv L q) :
    Narrow L (okPost fun _ q' => NarInv L q') (oclInitP e q) := by
  unfold oclInitP
  refine OM.narrow_bind (nar_fetch e 0 h.src) fun a q' hq => ?_
  subst hq
  refine OM.narrow_bind (nar_fetch e 1 h.src) fun b q' hq => ?_
  subst hq
  refine OM.narrow_bind (nar_fetch e 2 h.src) fun c q' hq => ?_
  subst hq
  refine OM.narrow_bind (nar_fetch e 3 h.src) fun d q' hq => ?_
  subst hq
  refine OM.narrow_bind (nar_fetch e 4 h.src) fun f q' hq => ?_
  subst hq
  refine OM.narrow_bind (nar_fetch e 5 h.src) fun g q' hq => ?_
  subst hq
  exact ⟨h.src, h.out, h.olen⟩

/-- `decompress_core` keeps to the whole words of its capacity, whatever it reads. -/
theorem nar_core (e : Endian) (inp : List Byte) (ioff ilen olen : Nat) :
    Narrow (8 * (olen / 8)) (fun _ => True) (oclCoreP e (some inp) ioff ilen olen) := by
  have h0 : NarInv (8 * (olen / 8)) (oclStart (some inp) ioff ilen [] olen) := ⟨by simp [oclStart], Nat.zero_le _, Nat.le_refl _⟩
  unfold oclCoreP
  refine Narrow.bind (P := okPost fun _ _ => True) ?_ ?_
  · refine OM.narrow_bind (nar_init e h0) fun _ q1 h1 => ?_
    refine OM.narrow_bind (nar_doWhile (fun q hq => nar_iter e hq) _ h1) fun _ q2 h2 => ?_
    refine OM.narrow_bind (nar_readBits e _ h2.src) fun _ q3 h3 => ?_
    trivial
  · intro o _
    cases o <;> trivial

end Lib842
