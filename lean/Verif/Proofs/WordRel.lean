import Verif.Model.WordDecomp
/-!
# Computations with machine words and with natural numbers
-/

namespace Lib842

variable {σ τ α β : Type}

/-- The outcome with its state translated (part of the proofs only, no counterpart in /repo) -/
def Outcome.mapS (tr : σ → τ) : Outcome σ α → Outcome τ α
  | .ok a s => .ok a (tr s)
  | .err e s => .err e (tr s)
  | .ub => .ub
  | .timeout => .timeout

/-- `x` started in `p` does what `y` does in the translated state, and keeps the invariant -/
structure RelAt (tr : σ → τ) (Inv : σ → Prop) (p : σ) (x : M σ α) (y : M τ α) : Prop where
  eq : (x p).mapS tr = y (tr p)
  inv : ∀ a p', x p = .ok a p' → Inv p'

variable {tr : σ → τ} {Inv : σ → Prop}

namespace RelAt

theorem pure {p : σ} (h : Inv p) (a : α) : RelAt tr Inv p (Pure.pure a : M σ α) (Pure.pure a : M τ α) :=
  ⟨rfl, fun _ _ he => by cases he; exact h⟩

theorem fail {p : σ} (e : Errno) : RelAt tr Inv p (M.fail e : M σ α) (M.fail e) :=
  ⟨rfl, fun _ _ he => by cases he⟩

theorem timeout {p : σ} : RelAt tr Inv p (M.timeout : M σ α) M.timeout :=
  ⟨rfl, fun _ _ he => by cases he⟩

theorem bind {p : σ} {x : M σ α} {y : M τ α} {f : α → M σ β} {g : α → M τ β} (h : RelAt tr Inv p x y)
    (hf : ∀ a p', x p = .ok a p' → Inv p' → RelAt tr Inv p' (f a) (g a)) : RelAt tr Inv p (x >>= f) (y >>= g) := by
  have hx : (x >>= f) p = (match x p with | .ok a s' => f a s' | .err e s' => .err e s' | .ub => .ub | .timeout => .timeout) := rfl
  have hy : (y >>= g) (tr p) = (match y (tr p) with | .ok a s' => g a s' | .err e s' => .err e s' | .ub => .ub | .timeout => .timeout) := rfl
  constructor
  · rw [hx, hy, ← h.eq]
    cases hr : x p with
    | ok a s => exact (hf a s hr (h.inv a s hr)).eq
    | err _ _ => rfl
    | ub => rfl
    | timeout => rfl
  · intro b p' he
    rw [hx] at he
    cases hr : x p with
    | ok a s => rw [hr] at he; exact (hf a s hr (h.inv a s hr)).inv b p' he
    | err _ _ => rw [hr] at he; cases he
    | ub => rw [hr] at he; cases he
    | timeout => rw [hr] at he; cases he

theorem get {p : σ} {f : σ → M σ β} {g : τ → M τ β} (h : RelAt tr Inv p (f p) (g (tr p))) :
    RelAt tr Inv p (M.get >>= f) (M.get >>= g) := ⟨h.eq, h.inv⟩

theorem access {p : σ} (hi : Inv p) {f : σ → Option α} {g : τ → Option α} (h : f p = g (tr p)) :
    RelAt tr Inv p (M.access f) (M.access g) := by
  constructor
  · unfold M.access
    rw [← h]
    cases f p <;> rfl
  · intro a p' he
    unfold M.access at he
    cases hf : f p with
    | none => rw [hf] at he; cases he
    | some _ => rw [hf] at he; cases he; exact hi

theorem modify {p : σ} {f : σ → σ} {g : τ → τ} (h : tr (f p) = g (tr p)) (hi : Inv (f p)) :
    RelAt tr Inv p (M.modify f) (M.modify g) :=
  ⟨by show Outcome.ok () (tr (f p)) = _; rw [h]; rfl, fun _ _ he => by cases he; exact hi⟩

theorem ite {p : σ} {c d : Prop} [Decidable c] [Decidable d] {x x' : M σ α} {y y' : M τ α} (h : c ↔ d)
    (ht : c → RelAt tr Inv p x y) (he : ¬ c → RelAt tr Inv p x' y') : RelAt tr Inv p (if c then x else x') (if d then y else y') := by
  by_cases hc : c
  · rw [if_pos hc, if_pos (h.1 hc)]; exact ht hc
  · rw [if_neg hc, if_neg (fun hd => hc (h.2 hd))]; exact he hc

end RelAt

/-! ## Results of different types -/

/-- The outcome with its state and its result translated (part of the proofs only, no counterpart in /repo) -/
def Outcome.mapSV (tr : σ → τ) (v : α → β) : Outcome σ α → Outcome τ β
  | .ok a s => .ok (v a) (tr s)
  | .err e s => .err e (tr s)
  | .ub => .ub
  | .timeout => .timeout

/-- `RelAt` for results of different types -/
structure RelV (tr : σ → τ) (Inv : σ → Prop) (v : α → β) (p : σ) (x : M σ α) (y : M τ β) : Prop where
  eq : (x p).mapSV tr v = y (tr p)
  inv : ∀ a p', x p = .ok a p' → Inv p'

namespace RelV
variable {α' β' : Type} {v : α → β} {Inv' : σ → Prop}

theorem ofRelAt {p : σ} {x : M σ α} {y : M τ α} (h : RelAt tr Inv p x y) : RelV tr Inv id p x y := by
  refine ⟨?_, h.inv⟩
  rw [← h.eq]
  cases x p <;> rfl

theorem pure {p : σ} (h : Inv p) {a : α} {b : β} (hb : v a = b) : RelV tr Inv v p (Pure.pure a : M σ α) (Pure.pure b : M τ β) :=
  ⟨by rw [← hb]; rfl, fun _ _ he => by cases he; exact h⟩

theorem fail {p : σ} (e : Errno) : RelV tr Inv v p (M.fail e : M σ α) (M.fail e) :=
  ⟨rfl, fun _ _ he => by cases he⟩

theorem timeout {p : σ} : RelV tr Inv v p (M.timeout : M σ α) M.timeout :=
  ⟨rfl, fun _ _ he => by cases he⟩

theorem bindV {u : α' → β'} {p : σ} {x : M σ α'} {y : M τ β'} {f : α' → M σ α} {g : β' → M τ β} (h : RelV tr Inv' u p x y)
    (hf : ∀ a p', x p = .ok a p' → Inv' p' → RelV tr Inv v p' (f a) (g (u a))) : RelV tr Inv v p (x >>= f) (y >>= g) := by
  have hx : (x >>= f) p = (match x p with | .ok a s' => f a s' | .err e s' => .err e s' | .ub => .ub | .timeout => .timeout) := rfl
  have hy : (y >>= g) (tr p) = (match y (tr p) with | .ok a s' => g a s' | .err e s' => .err e s' | .ub => .ub | .timeout => .timeout) := rfl
  constructor
  · rw [hx, hy, ← h.eq]
    cases hr : x p with
    | ok a s => exact (hf a s hr (h.inv a s hr)).eq
    | err _ _ => rfl
    | ub => rfl
    | timeout => rfl
  · intro b p' he
    rw [hx] at he
    cases hr : x p with
    | ok a s => rw [hr] at he; exact (hf a s hr (h.inv a s hr)).inv b p' he
    | err _ _ => rw [hr] at he; cases he
    | ub => rw [hr] at he; cases he
    | timeout => rw [hr] at he; cases he

theorem bind {p : σ} {x : M σ α'} {y : M τ α'} {f : α' → M σ α} {g : α' → M τ β} (h : RelAt tr Inv' p x y)
    (hf : ∀ a p', x p = .ok a p' → Inv' p' → RelV tr Inv v p' (f a) (g a)) : RelV tr Inv v p (x >>= f) (y >>= g) :=
  bindV (ofRelAt h) hf

theorem get {p : σ} {f : σ → M σ α} {g : τ → M τ β} (h : RelV tr Inv v p (f p) (g (tr p))) :
    RelV tr Inv v p (M.get >>= f) (M.get >>= g) := ⟨h.eq, h.inv⟩

theorem ite {p : σ} {c d : Prop} [Decidable c] [Decidable d] {x x' : M σ α} {y y' : M τ β} (h : c ↔ d)
    (ht : c → RelV tr Inv v p x y) (he : ¬ c → RelV tr Inv v p x' y') : RelV tr Inv v p (if c then x else x') (if d then y else y') := by
  by_cases hc : c
  · rw [if_pos hc, if_pos (h.1 hc)]; exact ht hc
  · rw [if_neg hc, if_neg (fun hd => hc (h.2 hd))]; exact he hc

end RelV

theorem RelV.toRelAt {p : σ} {x : M σ α} {y : M τ α} (h : RelV tr Inv id p x y) : RelAt tr Inv p x y := by
  refine ⟨?_, h.inv⟩
  rw [← h.eq]
  cases x p <;> rfl

theorem RelAt.update {p : σ} {f : σ → Option σ} {g : τ → Option τ} (h : (f p).map tr = g (tr p)) (hi : ∀ p', f p = some p' → Inv p') :
    RelAt tr Inv p (M.update f) (M.update g) := by
  constructor
  · unfold M.update
    rw [← h]
    cases f p <;> rfl
  · intro a p' he
    unfold M.update at he
    cases hf : f p with
    | none => rw [hf] at he; cases he
    | some q => rw [hf] at he; cases he; exact hi _ hf

/-! ## Words -/

theorem divRoundUp8W_toNat : ∀ b : BitVec 8, (divRoundUp8W b).toNat = divRoundUp b.toNat 8 := by
  decide +kernel

theorem roundDownW_toNat (x : BitVec 64) (k : Nat) (hk : k < 64) (y : BitVec 64) (hy : y.toNat = 2 ^ k) :
    (roundDownW x y).toNat = roundDown x.toNat (2 ^ k) := by
  have hkk : 2 ^ k < 2 ^ 64 := Nat.pow_lt_pow_right (by decide) hk
  have hy1 : y - 1#64 = BitVec.ofNat 64 (2 ^ k - 1) := by
    apply BitVec.eq_of_toNat_eq
    have hp : 0 < 2 ^ k := Nat.two_pow_pos k
    simp only [BitVec.toNat_sub, BitVec.toNat_ofNat, hy]
    omega
  have : roundDownW x y = x - (x &&& BitVec.ofNat 64 (2 ^ k - 1)) := by
    unfold roundDownW
    rw [hy1]
    apply BitVec.eq_of_toNat_eq
    have h1 : (x &&& ~~~(BitVec.ofNat 64 (2 ^ k - 1))) + (x &&& BitVec.ofNat 64 (2 ^ k - 1)) = x := by
      rw [BitVec.add_eq_or_of_and_eq_zero]
      · apply BitVec.eq_of_getLsbD_eq
        intro i hi
        simp only [BitVec.getLsbD_or, BitVec.getLsbD_and, BitVec.getLsbD_not, hi, decide_true, Bool.true_and]
        cases x.getLsbD i <;> cases (BitVec.ofNat 64 (2 ^ k - 1)).getLsbD i <;> rfl
      · apply BitVec.eq_of_getLsbD_eq
        intro i hi
        simp only [BitVec.getLsbD_and, BitVec.getLsbD_not, BitVec.getLsbD_zero]
        cases x.getLsbD i <;> cases (BitVec.ofNat 64 (2 ^ k - 1)).getLsbD i <;> simp
    rw [← BitVec.eq_sub_iff_add_eq.2 h1]
  have hm : (x &&& BitVec.ofNat 64 (2 ^ k - 1)).toNat = x.toNat % 2 ^ k := by
    rw [BitVec.toNat_and, BitVec.toNat_ofNat, Nat.mod_eq_of_lt (by omega), Nat.and_two_pow_sub_one_eq_mod]
  rw [this, BitVec.toNat_sub, hm]
  unfold roundDown
  have : x.toNat % 2 ^ k ≤ x.toNat := Nat.mod_le _ _
  have := x.isLt
  omega

end Lib842
