import Verif.Model.OclConfig
import Verif.Proofs.Ocl
/-!
# The configurations of the OpenCL kernel compared with the default one
-/

namespace Lib842
open Spec

namespace OclConfig

/-- The state of a kernel without look-ahead buffer that reads from `s`. -/
def bare (s : Option (List Byte)) (p : OclP) : OclP := { p with la := [], src := s }

/-- `y` does what `x` does, from related states: always if `er`, otherwise only if `x` succeeds. -/
def SimO {α : Type} (er : Bool) (s : Option (List Byte)) (Q : OclP → Prop) : Outcome OclP α → Outcome OclP α → Prop
  | .ok a p, y => y = .ok a (bare s p) ∧ Q p
  | .err e p, y => er = true → y = .err e (bare s p)
  | .ub, _ => True
  | .timeout, _ => True

structure Sim {α : Type} (er : Bool) (s : Option (List Byte)) (P Q : OclP → Prop) (x y : M OclP α) : Prop where
  run : ∀ p, P p → SimO er s Q (x p) (y (bare s p))

variable {er : Bool} {s : Option (List Byte)} {P Q Q' : OclP → Prop} {α β : Type}

theorem Sim.bind {x y : M OclP α} {f g : α → M OclP β} (h : Sim er s P Q x y) (hf : ∀ a, Sim er s Q Q' (f a) (g a)) :
    Sim er s P Q' (x >>= f) (y >>= g) := by
  constructor
  intro p hp
  have h1 := h.run p hp
  cases hx : x p with
  | ok a p1 =>
    rw [hx] at h1
    rw [M.bind_ok hx, M.bind_ok h1.1]
    exact (hf a).run p1 h1.2
  | err e p1 =>
    rw [hx] at h1
    rw [M.bind_err hx]
    intro he
    rw [M.bind_err (h1 he)]
  | ub => rw [M.bind_def, hx]; trivial
  | timeout => rw [M.bind_def, hx]; trivial

theorem Sim.get {f g : OclP → M OclP α} (h : ∀ p, P p → SimO er s Q (f p p) (g (bare s p) (bare s p))) :
    Sim er s P Q (M.get >>= f) (M.get >>= g) := by
  constructor
  intro p hp
  rw [M.get_bind_apply, M.get_bind_apply]
  exact h p hp

theorem Sim.pure (a : α) : Sim er s P P (Pure.pure a) (Pure.pure a) := ⟨fun _ hp => ⟨rfl, hp⟩⟩

theorem Sim.mono {P' : OclP → Prop} {x y : M OclP α} (h : Sim er s P Q x y) (hP : ∀ p, P' p → P p) (hQ : ∀ p, Q p → Q' p) :
    Sim er s P' Q' x y := by
  constructor
  intro p hp
  have h1 := h.run p (hP p hp)
  cases hx : x p with
  | ok a p1 => rw [hx] at h1; exact ⟨h1.1, hQ _ h1.2⟩
  | err e p1 => rw [hx] at h1; exact h1
  | ub => trivial
  | timeout => trivial

theorem Sim.access {f g : OclP → Option α} (h : ∀ p, P p → f p = g (bare s p)) :
    Sim er s P P (M.access f) (M.access g) := by
  constructor
  intro p hp
  unfold M.access
  rw [← h p hp]
  cases f p with
  | none => trivial
  | some a => exact ⟨rfl, hp⟩

theorem Sim.modify {f : OclP → OclP} (h : ∀ p, P p → f (bare s p) = bare s (f p)) (hQ : ∀ p, P p → Q (f p)) :
    Sim er s P Q (M.modify f) (M.modify f) := ⟨fun p hp => ⟨by show Outcome.ok _ _ = _; rw [h p hp], hQ p hp⟩⟩

theorem Sim.update {f : OclP → Option OclP} (h : ∀ p, P p → f (bare s p) = (f p).map (bare s))
    (hQ : ∀ p p', P p → f p = some p' → Q p') : Sim er s P Q (M.update f) (M.update f) := by
  constructor
  intro p hp
  unfold M.update
  rw [h p hp]
  cases hf : f p with
  | none => trivial
  | some p' => exact ⟨rfl, hQ p p' hp hf⟩

theorem Sim.ite {c : Prop} [Decidable c] {x y x' y' : M OclP α} (h : Sim er s P Q x y) (h' : Sim er s P Q x' y') :
    Sim er s P Q (if c then x else x') (if c then y else y') := by
  split
  · exact h
  · exact h'

/-- A check that fails in the default configuration may be missing. -/
theorem SimO.guard {c c' : Prop} [Decidable c] [Decidable c'] (hc : c ↔ c') {e : Errno} {x y : M OclP α} {p : OclP}
    (h : ¬ c → SimO er s Q (x p) (y (bare s p))) :
    SimO er s Q ((if c then M.fail e else x) p) ((if er = true ∧ c' then M.fail e else y) (bare s p)) := by
  by_cases h1 : c
  · rw [if_pos h1]
    intro he
    rw [if_pos ⟨he, hc.1 h1⟩]; rfl
  · rw [if_neg h1, if_neg (fun h2 => h1 (hc.2 h2.2))]
    exact h h1

/-! ## States -/

/-- The look-ahead buffer holds the next six words of the input. -/
def LaOk (e : Endian) (p : OclP) : Prop :=
  ∃ a b c d f g, p.la = [a, b, c, d, f, g] ∧ oclFetch e 0 p = some a ∧ oclFetch e 1 p = some b ∧
    oclFetch e 2 p = some c ∧ oclFetch e 3 p = some d ∧ oclFetch e 4 p = some f ∧ oclFetch e 5 p = some g

/-- The complete words of the two inputs agree. -/
def Agree (e : Endian) (s : Option (List Byte)) (p : OclP) : Prop :=
  ∀ j, 8 * (j + 1) ≤ p.ilen → load64 e (bare s p).input (8 * (p.ioff + j)) = load64 e p.input (8 * (p.ioff + j))

/-- Before the reads of an iteration. -/
def Rd (e : Endian) (s : Option (List Byte)) (p : OclP) : Prop := (s = none ↔ p.src = none) ∧ LaOk e p ∧ Agree e s p

/-- After the stores of an iteration. -/
def Wr (e : Endian) (s : Option (List Byte)) (p : OclP) : Prop := (s = none ↔ p.src = none) ∧ (p.src ≠ none → LaOk e p ∧ Agree e s p)

theorem Rd.wr {e : Endian} {p : OclP} (h : Rd e s p) : Wr e s p := ⟨h.1, fun _ => h.2⟩

variable {e : Endian}

theorem fetch_word (k : Nat) (p : OclP) (la : List (BitVec 64)) :
    oclFetch e k { p with word := p.word + 1, la := la } = oclFetch e (k + 1) p := by
  unfold oclFetch OclP.input
  simp only
  rw [show p.word + 1 + k = p.word + (k + 1) by omega, show p.ioff + (p.word + 1) + k = p.ioff + p.word + (k + 1) by omega]

/-- The next word, taken from the look-ahead buffer or from the input. -/
theorem next_sim (c : Bool) {p : OclP} (hp : Rd e s p) (hl : (p.word + 1) * 8 ≤ p.ilen) :
    (oclShift e p = .ub) ∨ ∃ w la', oclShift e p = .ok w { p with la := la' } ∧
      oclNextC ⟨er, false, c⟩ e (bare s p) = .ok w (bare s p) ∧
      Rd e s { p with word := p.word + 1, la := la' } := by
  obtain ⟨hs, ⟨a, b, c', d, f, g, hla, h0, h1, h2, h3, h4, h5⟩, hag⟩ := hp
  unfold oclShift
  cases h6 : oclFetch e 6 p with
  | none =>
    left
    rw [M.bind_def]
    unfold M.access
    rw [h6]
  | some w =>
    right
    rw [M.access_bind_some (g := oclFetch e 6) h6, M.get_bind_apply, hla]
    refine ⟨a, [b, c', d, f, g, w], rfl, ?_, hs, ⟨b, c', d, f, g, w, rfl, ?_, ?_, ?_, ?_, ?_, ?_⟩, ?_⟩
    · unfold oclNextC
      rw [if_neg (by simp)]
      have hw := hag p.word (by omega)
      unfold oclFetch at h0
      rw [if_pos (by omega), Nat.add_zero, ← hw] at h0
      cases hv : load64 e (bare s p).input (8 * (p.ioff + p.word)) with
      | none => rw [hv] at h0; cases h0
      | some v =>
        rw [hv] at h0
        rw [M.access_bind_some (g := fun p : OclP => load64 e p.input (8 * (p.ioff + p.word))) (a := v) hv]
        cases h0
        rfl
    · rw [fetch_word]; exact h1
    · rw [fetch_word]; exact h2
    · rw [fetch_word]; exact h3
    · rw [fetch_word]; exact h4
    · rw [fetch_word]; exact h5
    · rw [fetch_word]; exact h6
    · exact hag

theorem Rd.win {p : OclP} (h : Rd e s p) (x : BitVec 64) (n : Nat) : Rd e s { p with buffer := x, bits := n } := h

theorem win_sim {f : OclP → Option (BitVec 64 × BitVec 64 × Nat)} (h : ∀ p, f p = f (bare s p)) :
    Sim er s (Rd e s) (Rd e s)
      (do let r ← M.access f
          M.modify fun p => { p with buffer := r.2.1, bits := r.2.2 }
          Pure.pure r.1)
      (do let r ← M.access f
          M.modify fun p => { p with buffer := r.2.1, bits := r.2.2 }
          Pure.pure r.1) := by
  refine Sim.bind (Sim.access fun p _ => h p) fun r => ?_
  refine Sim.bind (Q := Rd e s) (Sim.modify ?_ ?_) fun _ => Sim.pure _
  · intros; rfl
  · intro q hq; exact hq.win _ _

theorem readBits_sim (c : Bool) (n : Nat) :
    Sim er s (Rd e s) (Rd e s) (oclReadBits e n) (oclReadBitsC ⟨er, false, c⟩ e n) := by
  unfold oclReadBits oclReadBitsC
  refine Sim.get fun p hp => ?_
  by_cases hb : p.bits < n
  · rw [if_pos hb, if_pos (show (bare s p).bits < n from hb)]
    refine SimO.guard (er := er) (by exact Iff.rfl) fun hl => ?_
    rcases next_sim (er := er) c hp (by omega) with h | ⟨w, la', h1, h2, h3⟩
    · rw [M.bind_def, h]; trivial
    · rw [M.bind_ok h1, M.bind_ok h2]
      exact (win_sim (er := er) (f := fun _ => winMiss p.buffer p.bits n w) fun _ => rfl).run _ h3
  · rw [if_neg hb, if_neg (show ¬ (bare s p).bits < n from hb)]
    exact (win_sim (er := er) (f := fun p => winHit p.buffer p.bits n) fun _ => rfl).run p hp

theorem getIndex_sim (c : Bool) (size index fsize : Nat) :
    Sim er s P P (oclGetIndex size index fsize) (oclGetIndexC ⟨er, false, c⟩ size index fsize) := by
  unfold oclGetIndex oclGetIndexC
  refine Sim.get fun p hp => ?_
  exact SimO.guard (er := er) (by exact Iff.rfl) fun _ => ⟨rfl, hp⟩

theorem room_sim (c : Bool) (k : Nat) : Sim er s P P (oclRoom k) (oclRoomC ⟨er, false, c⟩ k) := by
  unfold oclRoom oclRoomC
  refine Sim.get fun p hp => ?_
  exact SimO.guard (er := er) (by exact Iff.rfl) fun _ => ⟨rfl, hp⟩

theorem ref_sim (dst offset : Nat) : Sim er s P P (oclRef e dst offset) (oclRef e dst offset) := by
  unfold oclRef
  exact Sim.bind (Sim.access fun _ _ => rfl) fun _ => Sim.bind (Sim.access fun _ _ => rfl) fun _ => Sim.pure _

/-- `opbits` does not wrap around. -/
theorem field_sim (c : Bool) (params : BitVec 64) (isIndex dst numBits : Nat) (l : Nat × BitVec 64 × Nat)
    (h1 : numBits ≤ l.1) (h2 : l.1 < 256) :
    Sim er s P P (oclField e params isIndex dst numBits l) (oclFieldC ⟨er, false, c⟩ e params isIndex dst numBits l) := by
  unfold oclField oclFieldC
  have h3 : (((l.1 : Int) - numBits) % 256).toNat = l.1 - numBits := by omega
  rw [h3]
  by_cases hi : isIndex ≠ 0
  · simp only [if_pos hi]
    exact Sim.bind (getIndex_sim c ..) fun _ => Sim.bind (ref_sim ..) fun _ => Sim.pure _
  · simp only [if_neg hi]
    exact Sim.bind (Sim.pure _) fun _ => Sim.pure _

theorem field_bits {params : BitVec 64} {isIndex dst numBits : Nat} {l l' : Nat × BitVec 64 × Nat} {p p1 : OclP}
    (hx : oclField e params isIndex dst numBits l p = .ok l' p1) : l'.1 = l.1 - numBits := by
  unfold oclField at hx
  simp only at hx
  split at hx
  · rw [M.bind_def] at hx
    split at hx <;> try cases hx
    rw [M.bind_def] at hx
    split at hx <;> cases hx
    rfl
  · cases hx; rfl

theorem fields_sim (c : Bool) (params : BitVec 64) (fs : List (Nat × Nat × Nat)) (l : Nat × BitVec 64 × Nat)
    (h1 : (fs.map (·.2.2)).sum ≤ l.1) (h2 : l.1 < 256) :
    Sim er s P P (oclFields e params fs l) (oclFieldsC ⟨er, false, c⟩ e params fs l) := by
  induction fs generalizing l P with
  | nil => exact Sim.pure _
  | cons f fs ih =>
    simp only [List.map_cons, List.sum_cons] at h1
    unfold oclFields oclFieldsC
    have hf := field_sim (er := er) (s := s) (P := P) (e := e) c params f.1 f.2.1 f.2.2 l (by omega) h2
    constructor
    intro p hp
    have h3 := hf.run p hp
    cases hx : oclField e params f.1 f.2.1 f.2.2 l p with
    | ok l' p1 =>
      rw [hx] at h3
      rw [M.bind_ok hx, M.bind_ok h3.1]
      have hl : l'.1 = l.1 - f.2.2 := field_bits hx
      exact (ih l' (by omega) (by omega)).run p1 h3.2
    | err er' p1 =>
      rw [hx] at h3
      rw [M.bind_err hx]
      intro he
      rw [M.bind_err (h3 he)]
    | ub => rw [M.bind_def, hx]; trivial
    | timeout => rw [M.bind_def, hx]; trivial

theorem put_sim (bs : List Byte) : Sim er s (Wr e s) (Wr e s) (oclPut bs) (oclPut bs) := by
  unfold oclPut
  have key : ∀ (p : OclP) (b : List Byte) (o : Nat), Wr e s p → Wr e s { p with buf := b, out := o } := by
    intro p b o hp
    refine ⟨hp.1, fun hs => ?_⟩
    have hs : p.src ≠ none := hs
    obtain ⟨h1, h2⟩ := hp.2 hs
    obtain ⟨i, hi⟩ := Option.ne_none_iff_exists'.1 hs
    obtain ⟨i', hi'⟩ := Option.ne_none_iff_exists'.1 (fun h => hs (hp.1.1 h))
    have hin : ∀ q : OclP, q.src = some i → q.input = i := fun q hq => by unfold OclP.input; rw [hq]; rfl
    have hin' : ∀ q : OclP, (bare s q).input = i' := fun q => by
      show Option.getD s _ = _
      rw [hi']; rfl
    constructor
    · obtain ⟨a, b, c, d, f, g, h⟩ := h1
      refine ⟨a, b, c, d, f, g, ?_⟩
      unfold oclFetch at h ⊢
      simp only [hin p hi, hin { p with buf := _, out := o } hi] at h ⊢
      exact h
    · intro j hj
      have := h2 j hj
      rw [hin p hi, hin' p] at this
      rw [hin { p with buf := _, out := o } hi, hin']
      exact this
  refine Sim.bind (Q := Wr e s) (Sim.update ?_ ?_) fun _ => Sim.modify ?_ ?_
  · intro p _
    show Option.map _ (writeBytes p.buf (8 * p.out) bs) = Option.map _ (Option.map _ (writeBytes p.buf (8 * p.out) bs))
    rw [Option.map_map]; rfl
  · intro p p' hp hw
    cases hb : writeBytes p.buf (8 * p.out) bs with
    | none => rw [hb] at hw; cases hw
    | some b => rw [hb] at hw; cases hw; exact key p b p.out hp
  · intros; rfl
  · intro p hp; exact key p p.buf _ hp

theorem repeat_sim (k : Nat) : Sim er s (Wr e s) (Wr e s) (oclRepeat k) (oclRepeat k) := by
  induction k with
  | zero => exact Sim.pure _
  | succ k ih =>
    unfold oclRepeat
    exact Sim.bind (Sim.access fun _ _ => rfl) fun bs => Sim.bind (put_sim bs) fun _ => ih

theorem row_fits : ∀ op, op < 25 → ((oclRow op).map (·.2.2)).sum ≤ oclOpbits op ∧ oclOpbits op < 256 := by decide +kernel

theorem Sim.wr {x y : M OclP α} (h : Sim er s (Wr e s) Q x y) : Sim er s (Rd e s) Q x y :=
  h.mono (fun _ hp => hp.wr) fun _ h => h

theorem doOp_sim (c : Bool) {op : Nat} (hop : op ≠ 25) :
    Sim er s (Rd e s) (Wr e s) (oclDoOp e op) (oclDoOpC ⟨er, false, c⟩ e op) := by
  unfold oclDoOp oclDoOpC
  constructor
  intro p hp
  refine SimO.guard (er := er) Iff.rfl fun hlt => ?_
  obtain ⟨h1, h2⟩ := row_fits op (by omega)
  exact (Sim.bind (readBits_sim c _) fun params => Sim.bind (fields_sim c params _ _ h1 h2) fun l =>
    Sim.bind (room_sim c 1) fun _ => (put_sim _).wr).run p hp

theorem iter_sim (c : Bool) : Sim er s (Rd e s) (Wr e s) (oclIter e) (oclIterC ⟨er, false, c⟩ e) := by
  unfold oclIter oclIterC
  refine Sim.bind (readBits_sim c 5) fun op => ?_
  split
  · refine Sim.bind (readBits_sim c 6) fun rep => Sim.get fun p hp => ?_
    refine SimO.guard (er := er) (by exact Iff.rfl) fun _ => ?_
    exact (Sim.bind (room_sim c _) fun _ => Sim.bind (repeat_sim _).wr fun _ => Sim.pure _).run p hp
  · split
    · exact Sim.bind (room_sim c _) fun _ => Sim.bind (put_sim _).wr fun _ => Sim.pure _
    · split
      · exact (Sim.pure (P := Wr e s) true).wr
      · split
        · refine Sim.bind (readBits_sim c 8) fun v => Sim.bind (getIndex_sim c ..) fun o => Sim.bind (room_sim c 1) fun _ => ?_
          exact Sim.bind (Sim.access fun _ _ => rfl) fun bs => Sim.bind (put_sim bs).wr fun _ => Sim.pure _
        · rename_i h25
          exact Sim.bind (doOp_sim c (by simpa using h25)) fun _ => Sim.pure _

theorem Wr.rd {p : OclP} (h : Wr e s p) (hs : s ≠ none) : Rd e s p :=
  ⟨h.1, h.2 fun hp => hs (h.1.2 hp)⟩

/-- The loop, when input and output are different buffers. -/
theorem loop_sim (c : Bool) (fuel : Nat) (hs : s ≠ none) :
    Sim er s (Rd e s) (Rd e s) (M.doWhile (oclIter e) fuel) (M.doWhile (oclIterC ⟨er, false, c⟩ e) fuel) := by
  induction fuel with
  | zero => exact ⟨fun _ _ => trivial⟩
  | succ fuel ih =>
    unfold M.doWhile
    refine Sim.bind ((iter_sim c).mono (fun _ h => h) fun p h => h.rd hs) fun d => ?_
    split
    · exact Sim.pure _
    · exact ih

/-! ## The look-ahead buffer and error handling as they are -/

theorem oclReadBitsC_std (c : Bool) (n : Nat) : oclReadBitsC ⟨true, true, c⟩ e n = oclReadBits e n := by
  unfold oclReadBitsC oclReadBits oclNextC
  simp

theorem oclGetIndexC_std (c : Bool) (size index fsize : Nat) :
    oclGetIndexC ⟨true, true, c⟩ size index fsize = oclGetIndex size index fsize := by
  unfold oclGetIndexC oclGetIndex
  simp

theorem oclRoomC_std (c : Bool) (k : Nat) : oclRoomC ⟨true, true, c⟩ k = oclRoom k := by
  unfold oclRoomC oclRoom
  simp

theorem oclFieldsC_std (c : Bool) (params : BitVec 64) (fs : List (Nat × Nat × Nat)) (l : Nat × BitVec 64 × Nat)
    (h1 : (fs.map (·.2.2)).sum ≤ l.1) (h2 : l.1 < 256) (p : OclP) :
    oclFieldsC ⟨true, true, c⟩ e params fs l p = oclFields e params fs l p := by
  induction fs generalizing l p with
  | nil => rfl
  | cons f fs ih =>
    simp only [List.map_cons, List.sum_cons] at h1
    unfold oclFields oclFieldsC
    have h3 : (((l.1 : Int) - f.2.2) % 256).toNat = l.1 - f.2.2 := by omega
    have hf : oclFieldC ⟨true, true, c⟩ e params f.1 f.2.1 f.2.2 l = oclField e params f.1 f.2.1 f.2.2 l := by
      unfold oclField oclFieldC
      simp only [h3, oclGetIndexC_std]
    rw [hf, M.bind_def, M.bind_def]
    cases hx : oclField e params f.1 f.2.1 f.2.2 l p with
    | ok l' p1 =>
      have hl := field_bits hx
      exact ih l' (by omega) (by omega) p1
    | err er' p1 => rfl
    | ub => rfl
    | timeout => rfl

theorem oclDoOpC_std (c : Bool) {op : Nat} (hop : op ≠ 25) : oclDoOpC ⟨true, true, c⟩ e op = oclDoOp e op := by
  unfold oclDoOpC oclDoOp
  by_cases h : op ≥ 26
  · rw [if_pos h, if_pos ⟨rfl, h⟩]
  · rw [if_neg h, if_neg (fun hh => h hh.2), oclReadBitsC_std, oclRoomC_std]
    obtain ⟨h1, h2⟩ := row_fits op (by omega)
    congr 1
    funext params
    funext p
    rw [M.bind_def, M.bind_def, oclFieldsC_std c params _ _ h1 h2]

theorem oclIterC_std (c : Bool) : oclIterC ⟨true, true, c⟩ e = oclIter e := by
  unfold oclIterC oclIter
  simp only [oclReadBitsC_std, oclGetIndexC_std, oclRoomC_std, true_and]
  congr 1
  funext op
  by_cases h : op.toNat = 26 - 1
  · simp [h]
  · rw [oclDoOpC_std c (by simpa using h)]

theorem oclBodyC_std (fuel : Nat) : oclBodyC ⟨true, true, true⟩ e fuel = oclBody e fuel := by
  unfold oclBodyC oclBody
  rw [oclIterC_std, oclReadBitsC_std]
  rfl

theorem oclCoreCfg_std (src : Option (List Byte)) (ioff ilen : Nat) (buf : List Byte) (olen : Nat) :
    oclCoreCfg ⟨true, true, true⟩ e src ioff ilen buf olen = oclCore e src ioff ilen buf olen := by
  unfold oclCoreCfg oclCore
  rw [oclBodyC_std]
  rfl

/-! ## No look-ahead buffer -/

/-- The body, when input and output are different buffers. -/
theorem body_sim (c : Bool) (fuel : Nat) (hs : s ≠ none) :
    Sim er s (Rd e s) (Rd e s) (oclBodyC ⟨true, true, c⟩ e fuel) (oclBodyC ⟨er, false, c⟩ e fuel) := by
  unfold oclBodyC
  rw [oclIterC_std]
  refine Sim.bind (loop_sim c fuel hs) fun _ => ?_
  simp only [oclReadBitsC_std]
  split
  · exact Sim.bind (readBits_sim c 32) fun _ => Sim.get fun p hp => ⟨rfl, hp⟩
  · exact Sim.get fun p hp => ⟨rfl, hp⟩

/-- The initial state. -/
theorem init_rd {inp inp' : List Byte} {ioff ilen : Nat} {buf : List Byte} {olen : Nat} {p : OclP}
    (h : oclInit e (oclStart (some inp') ioff ilen buf olen) = some p)
    (hag : ∀ j, 8 * (j + 1) ≤ ilen → load64 e inp (8 * (ioff + j)) = load64 e inp' (8 * (ioff + j))) :
    Rd e (some inp) p ∧ bare (some inp) p = oclStart (some inp) ioff ilen buf olen := by
  unfold oclInit at h
  split at h
  · rename_i a b c d f g h0 h1 h2 h3 h4 h5
    cases h
    exact ⟨⟨by simp [oclStart], ⟨a, b, c, d, f, g, rfl, h0, h1, h2, h3, h4, h5⟩, hag⟩, rfl⟩
  · cases h

/-- With error handling: a kernel without look-ahead buffer does the same on every input whose complete
words are the same, unless the kernel with look-ahead buffer does something undefined. -/
theorem core_nolook (c : Bool) {inp inp' : List Byte} {ioff ilen : Nat} {buf : List Byte} {olen : Nat}
    (hag : ∀ j, 8 * (j + 1) ≤ ilen → load64 e inp (8 * (ioff + j)) = load64 e inp' (8 * (ioff + j)))
    {rc : Option Errno} {n : Nat} {b : List Byte}
    (h : oclCoreCfg ⟨true, true, c⟩ e (some inp') ioff ilen buf olen = .ret rc n b) :
    oclCoreCfg ⟨true, false, c⟩ e (some inp) ioff ilen buf olen = .ret rc n b := by
  unfold oclCoreCfg at h ⊢
  unfold oclInitC at h ⊢
  simp only [if_true, Bool.false_eq_true, if_false] at h ⊢
  cases hi : oclInit e (oclStart (some inp') ioff ilen buf olen) with
  | none => rw [hi] at h; cases h
  | some p =>
    rw [hi] at h
    simp only at h
    obtain ⟨h1, h2⟩ := init_rd hi hag
    have h3 := (body_sim (er := true) c (8 * ilen + 1) (by simp)).run p h1
    rw [h2] at h3
    cases hx : oclBodyC ⟨true, true, c⟩ e (8 * ilen + 1) p with
    | ok m p1 =>
      rw [hx] at h h3
      rw [h3.1]
      exact h
    | err er p1 =>
      rw [hx] at h h3
      rw [h3 rfl]
      exact h
    | ub => rw [hx] at h; cases h
    | timeout => rw [hx] at h; cases h

/-! ## No error handling -/

/-- Bits of the input object that have not been consumed. -/
def left (p : OclP) : Nat := 8 * p.input.length - 64 * (p.ioff + p.word) + p.bits

/-- A computation that does not return an error, consumes at least `k` bits, and leaves the buffers in
place. -/
structure Prog (k : Nat) (x : M OclP α) : Prop where
  run : ∀ p, match x p with
    | .ok _ q => left q + k ≤ left p ∧ q.buf.length = p.buf.length ∧ q.src = p.src
    | .err _ _ => False
    | .ub => True
    | .timeout => False

theorem Prog.bind {i j : Nat} {x : M OclP α} {f : α → M OclP β} (h : Prog i x) (hf : ∀ a, Prog j (f a)) :
    Prog (i + j) (x >>= f) := by
  constructor
  intro p
  have h1 := h.run p
  rw [M.bind_def]
  cases hx : x p with
  | ok a q =>
    rw [hx] at h1
    have h2 := (hf a).run q
    simp only at h1 ⊢
    cases hy : f a q with
    | ok b r =>
      rw [hy] at h2
      simp only at h2 ⊢
      exact ⟨by omega, h2.2.1.trans h1.2.1, h2.2.2.trans h1.2.2⟩
    | err er r => rw [hy] at h2; exact h2
    | ub => trivial
    | timeout => rw [hy] at h2; exact h2
  | err er q => rw [hx] at h1; exact h1
  | ub => trivial
  | timeout => rw [hx] at h1; exact h1

theorem Prog.weaken {i j : Nat} {x : M OclP α} (h : Prog i x) (hij : j ≤ i) : Prog j x := by
  constructor
  intro p
  have h1 := h.run p
  cases hx : x p with
  | ok a q => rw [hx] at h1; exact ⟨by have := h1.1; omega, h1.2⟩
  | err er q => rw [hx] at h1; exact h1
  | ub => trivial
  | timeout => rw [hx] at h1; exact h1

theorem Prog.pure (a : α) : Prog 0 (Pure.pure a : M OclP α) := ⟨fun _ => ⟨Nat.le_refl _, rfl, rfl⟩⟩

theorem Prog.access (f : OclP → Option α) : Prog 0 (M.access f) := by
  constructor
  intro p
  unfold M.access
  cases f p with
  | none => trivial
  | some a => exact ⟨Nat.le_refl _, rfl, rfl⟩

theorem Prog.get {k : Nat} {f : OclP → M OclP α} (h : ∀ p, Prog k (f p)) : Prog k (M.get >>= f) := by
  constructor
  intro p
  rw [M.get_bind_apply]
  exact (h p).run p

theorem Prog.ite {k : Nat} {c : Prop} [Decidable c] {x y : M OclP α} (h : Prog k x) (h' : Prog k y) :
    Prog k (if c then x else y) := by
  split
  · exact h
  · exact h'

theorem winHit_bits {b : BitVec 64} {bits n : Nat} {r : BitVec 64 × BitVec 64 × Nat} (h : winHit b bits n = some r) :
    r.2.2 = bits - n := by
  unfold winHit at h
  split at h <;> cases h
  rfl

theorem winMiss_bits {b w : BitVec 64} {bits n : Nat} {r : BitVec 64 × BitVec 64 × Nat} (h : winMiss b bits n w = some r) :
    r.2.2 = bits + 64 - n ∧ n ≤ 64 := by
  unfold winMiss at h
  split at h
  · rename_i h1 _ _
    cases h
    refine ⟨rfl, ?_⟩
    unfold cshr at h1
    split at h1
    · omega
    · cases h1
  · cases h

theorem readBits_prog (c : Bool) (n : Nat) : Prog n (oclReadBitsC ⟨false, false, c⟩ e n) := by
  constructor
  intro p
  unfold oclReadBitsC
  rw [M.get_bind_apply]
  by_cases hb : p.bits < n
  · rw [if_pos hb, if_neg (by simp)]
    unfold oclNextC
    rw [if_neg (by simp)]
    cases hl : load64 e p.input (8 * (p.ioff + p.word)) with
    | none =>
      rw [M.bind_def, M.bind_def]
      simp only [M.access, hl]
    | some v =>
      have hlen : 8 * (p.ioff + p.word) + 8 ≤ p.input.length := by
        by_contra hc
        unfold load64 at hl
        rw [readBytes_none (by omega)] at hl
        cases hl
      cases hw : winMiss p.buffer p.bits n (swapBe64 e v) with
      | none => simp only [M.bind_def, M.access, M.modify, hl, hw, M.pure_apply]
      | some r =>
        obtain ⟨h1, h2⟩ := winMiss_bits hw
        simp only [M.bind_def, M.access, M.modify, hl, hw, M.pure_apply]
        refine ⟨?_, trivial, trivial⟩
        show 8 * p.input.length - 64 * (p.ioff + (p.word + 1)) + r.2.2 + n ≤ 8 * p.input.length - 64 * (p.ioff + p.word) + p.bits
        omega
  · rw [if_neg hb]
    cases hw : winHit p.buffer p.bits n with
    | none =>
      rw [M.bind_def]
      simp only [M.access, hw]
    | some r =>
      rw [M.access_bind_some (g := fun p : OclP => winHit p.buffer p.bits n) hw]
      have h1 := winHit_bits hw
      refine ⟨?_, rfl, rfl⟩
      show 8 * p.input.length - 64 * (p.ioff + p.word) + r.2.2 + n ≤ 8 * p.input.length - 64 * (p.ioff + p.word) + p.bits
      omega

theorem getIndex_prog (c : Bool) (size index fsize : Nat) : Prog 0 (oclGetIndexC ⟨false, false, c⟩ size index fsize) := by
  unfold oclGetIndexC
  refine Prog.get fun p => ?_
  simp only [Bool.false_eq_true, false_and, if_false]
  exact Prog.pure _

theorem room_prog (c : Bool) (k : Nat) : Prog 0 (oclRoomC ⟨false, false, c⟩ k) := by
  unfold oclRoomC
  refine Prog.get fun p => ?_
  simp only [Bool.false_eq_true, false_and, if_false]
  exact Prog.pure _

theorem ref_prog (dst offset : Nat) : Prog 0 (oclRef e dst offset) := by
  unfold oclRef
  exact Prog.bind (i := 0) (j := 0) (Prog.access _) fun _ => Prog.bind (i := 0) (j := 0) (Prog.access _) fun _ => Prog.pure _

theorem fields_prog (c : Bool) (params : BitVec 64) (fs : List (Nat × Nat × Nat)) (l : Nat × BitVec 64 × Nat) :
    Prog 0 (oclFieldsC ⟨false, false, c⟩ e params fs l) := by
  induction fs generalizing l with
  | nil => exact Prog.pure _
  | cons f fs ih =>
    unfold oclFieldsC
    refine Prog.bind (i := 0) (j := 0) ?_ fun l => ih l
    unfold oclFieldC
    simp only
    split
    · exact Prog.bind (i := 0) (j := 0) (getIndex_prog c ..) fun _ => Prog.bind (i := 0) (j := 0) (ref_prog ..) fun _ => Prog.pure _
    · exact Prog.bind (i := 0) (j := 0) (Prog.pure _) fun _ => Prog.pure _

theorem put_prog (bs : List Byte) : Prog 0 (oclPut bs) := by
  constructor
  intro p
  unfold oclPut
  by_cases h : 8 * p.out + bs.length ≤ p.buf.length
  · rw [M.update_bind_some (g := fun p : OclP => (writeBytes p.buf (8 * p.out) bs).map fun b => { p with buf := b })
      (s' := { p with buf := p.buf.take (8 * p.out) ++ bs ++ p.buf.drop (8 * p.out + bs.length) })
      (by rw [writeBytes_ok (by omega), Option.map_some])]
    have hlb : (p.buf.take (8 * p.out) ++ bs ++ p.buf.drop (8 * p.out + bs.length)).length = p.buf.length := by
      simp; omega
    refine ⟨?_, hlb, rfl⟩
    show 8 * (Option.getD p.src (p.buf.take (8 * p.out) ++ bs ++ p.buf.drop (8 * p.out + bs.length))).length - 64 * (p.ioff + p.word) + p.bits + 0 ≤
      8 * (Option.getD p.src p.buf).length - 64 * (p.ioff + p.word) + p.bits
    cases p.src with
    | none => simp only [Option.getD_none, hlb]; omega
    | some i => simp only [Option.getD_some]; omega
  · rw [M.bind_def]
    have : writeBytes p.buf (8 * p.out) bs = none := by unfold writeBytes; rw [if_neg h]
    simp only [M.update, this, Option.map_none]

theorem repeat_prog (k : Nat) : Prog 0 (oclRepeat k) := by
  induction k with
  | zero => exact Prog.pure _
  | succ k ih =>
    unfold oclRepeat
    exact Prog.bind (i := 0) (j := 0) (Prog.access _) fun bs => Prog.bind (i := 0) (j := 0) (put_prog bs) fun _ => ih

theorem iter_prog (c : Bool) : Prog 5 (oclIterC ⟨false, false, c⟩ e) := by
  unfold oclIterC
  refine Prog.bind (j := 0) (readBits_prog c 5) fun op => ?_
  simp only [Bool.false_eq_true, false_and, if_false]
  refine Prog.ite ?_ (Prog.ite ?_ (Prog.ite (Prog.pure _) (Prog.ite ?_ ?_)))
  · refine (Prog.bind (j := 0) (readBits_prog c 6) fun rep => Prog.get fun p => ?_).weaken (Nat.zero_le _)
    exact Prog.bind (i := 0) (j := 0) (room_prog c _) fun _ => Prog.bind (i := 0) (j := 0) (repeat_prog _) fun _ => Prog.pure _
  · exact Prog.bind (i := 0) (j := 0) (room_prog c _) fun _ => Prog.bind (i := 0) (j := 0) (put_prog _) fun _ => Prog.pure _
  · refine (Prog.bind (j := 0) (readBits_prog c 8) fun rep => ?_).weaken (Nat.zero_le _)
    exact Prog.bind (i := 0) (j := 0) (getIndex_prog c ..) fun _ => Prog.bind (i := 0) (j := 0) (room_prog c _) fun _ =>
      Prog.bind (i := 0) (j := 0) (Prog.access _) fun bs => Prog.bind (i := 0) (j := 0) (put_prog bs) fun _ => Prog.pure _
  · refine Prog.bind (i := 0) (j := 0) ?_ fun _ => Prog.pure _
    unfold oclDoOpC
    simp only [Bool.false_eq_true, false_and, if_false]
    refine (Prog.bind (j := 0) (readBits_prog c _) fun params => ?_).weaken (Nat.zero_le _)
    exact Prog.bind (i := 0) (j := 0) (fields_prog c ..) fun _ => Prog.bind (i := 0) (j := 0) (room_prog c _) fun _ => put_prog _

theorem loop_prog (c : Bool) (fuel : Nat) (p : OclP) (h : left p < 5 * fuel) :
    match M.doWhile (oclIterC ⟨false, false, c⟩ e) fuel p with
    | .ok _ q => q.buf.length = p.buf.length ∧ q.src = p.src
    | .err _ _ => False
    | .ub => True
    | .timeout => False := by
  induction fuel generalizing p with
  | zero => omega
  | succ fuel ih =>
    unfold M.doWhile
    have h1 := (iter_prog (e := e) c).run p
    rw [M.bind_def]
    cases hx : oclIterC ⟨false, false, c⟩ e p with
    | ok d q =>
      rw [hx] at h1
      simp only at h1 ⊢
      cases d with
      | true => exact ⟨h1.2.1, h1.2.2⟩
      | false =>
        rw [if_neg (by simp)]
        have h2 := ih q (by omega)
        cases hy : M.doWhile (oclIterC ⟨false, false, c⟩ e) fuel q with
        | ok d r => rw [hy] at h2; exact ⟨h2.1.trans h1.2.1, h2.2.trans h1.2.2⟩
        | err er r => rw [hy] at h2; exact h2
        | ub => trivial
        | timeout => rw [hy] at h2; exact h2
    | err er q => rw [hx] at h1; exact h1
    | ub => trivial
    | timeout => rw [hx] at h1; exact h1

/-- Without error handling the function returns 0 or does something undefined. -/
theorem body_prog (c : Bool) (fuel : Nat) (p : OclP) (h : left p < 5 * fuel) :
    oclBodyC ⟨false, false, c⟩ e fuel p = .ub ∨
    ∃ n q, oclBodyC ⟨false, false, c⟩ e fuel p = .ok n q ∧ q.buf.length = p.buf.length := by
  unfold oclBodyC
  have h1 := loop_prog (e := e) c fuel p h
  rw [M.bind_def]
  cases hx : M.doWhile (oclIterC ⟨false, false, c⟩ e) fuel p with
  | ok d q =>
    rw [hx] at h1
    simp only
    have h2 : Prog 0 (if c = true then (do
        let _crc ← oclReadBitsC ⟨false, false, c⟩ e 32
        let p ← M.get
        Pure.pure (p.out * 8)) else (do
        let p ← M.get
        Pure.pure (p.out * 8)) : M OclP Nat) :=
      Prog.ite ((Prog.bind (j := 0) (readBits_prog c 32) fun _ => Prog.get fun _ => Prog.pure _).weaken (Nat.zero_le _))
        (Prog.get fun _ => Prog.pure _)
    have h3 := h2.run q
    cases hy : (if c = true then (do
        let _crc ← oclReadBitsC ⟨false, false, c⟩ e 32
        let p ← M.get
        Pure.pure (p.out * 8)) else (do
        let p ← M.get
        Pure.pure (p.out * 8)) : M OclP Nat) q with
    | ok n r =>
      rw [hy] at h3
      exact .inr ⟨n, r, rfl, h3.2.1.trans h1.1⟩
    | err er r => rw [hy] at h3; exact h3.elim
    | ub => exact .inl rfl
    | timeout => rw [hy] at h3; exact h3.elim
  | err er q => rw [hx] at h1; exact h1.elim
  | ub => exact .inl rfl
  | timeout => rw [hx] at h1; exact h1.elim

end OclConfig
end Lib842
