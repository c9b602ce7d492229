import Verif.Model.CryptodevThreads
/-!
# Several threads in the hardware wrapper: proofs

`Safe Q p H`: a thread that holds `H` can run `p`, whatever the system answers, using only what it
holds, and ends with `Q`.
-/

namespace Lib842
open Spec

/-! ## The trees are the functions of `Verif.Model.Cryptodev` -/

theorem SysM.bind_assoc {α β γ : Type} (x : SysM α) (f : α → SysM β) (g : β → SysM γ) :
    SysM.bind (SysM.bind x f) g = SysM.bind x fun a => SysM.bind (f a) g := by
  funext env tr
  unfold SysM.bind
  cases x env tr <;> rfl

theorem SysM.pure_bind {α β : Type} (a : α) (f : α → SysM β) : SysM.bind (SysM.pure a) f = f a := rfl

theorem SysM.ub_bind {α β : Type} (f : α → SysM β) : SysM.bind SysM.ub f = SysM.ub := rfl

theorem Prog.alone_bind {α β : Type} (p : Prog α) (f : α → Prog β) :
    (p.bind f).alone = SysM.bind p.alone fun a => (f a).alone := by
  induction p with
  | ret a => rfl
  | ub => rfl
  | call c k ih =>
    show SysM.bind (SysM.call c) (fun r => ((k r).bind f).alone) = SysM.bind (SysM.bind (SysM.call c) _) _
    rw [SysM.bind_assoc]
    congr 1
    funext r
    exact ih r

theorem Prog.alone_sys (c : Sys) : (Prog.sys c).alone = SysM.call c := by
  funext env tr
  rfl

theorem SysM.bind_congr {α β : Type} {x : SysM α} {f g : α → SysM β} (h : ∀ a, f a = g a) : SysM.bind x f = SysM.bind x g := by
  rw [funext h]

theorem ctxInitP_alone (info : Bool) (junk : BitVec 16) : (ctxInitP info junk).alone = ctxInit info junk := by
  unfold ctxInitP ctxInit
  simp only [Bind.bind, Prog.alone_bind, Prog.alone_sys]
  refine SysM.bind_congr fun r => ?_
  cases r with
  | fail e => rfl
  | ok cfd =>
    simp only [Prog.alone_bind, Prog.alone_sys]
    refine SysM.bind_congr fun r => ?_
    cases r with
    | fail e => rfl
    | ok v =>
      simp only [Prog.alone_bind, Prog.alone_sys]
      refine SysM.bind_congr fun r => ?_
      cases r with
      | fail e => rfl
      | ok ses =>
        cases info with
        | false => rfl
        | true =>
          simp only [if_pos, Prog.alone_bind, Prog.alone_sys]
          refine SysM.bind_congr fun r => ?_
          cases r <;> rfl

theorem ctxDeinitP_alone (ctx : CtxDev) : (ctxDeinitP ctx).alone = ctxDeinit ctx := by
  unfold ctxDeinitP ctxDeinit
  simp only [Bind.bind, Prog.alone_bind, Prog.alone_sys]
  refine SysM.bind_congr fun r => ?_
  cases r <;> (
    simp only [Prog.alone_bind, Prog.alone_sys]
    refine SysM.bind_congr fun a => SysM.bind_congr fun r => ?_
    cases r <;> rfl)

theorem destroyP_alone (s : DevState) :
    SysM.bind (destroyP s.slot).alone (fun _ => SysM.pure { s with slot := none }) = destroyThreadCtx s := by
  obtain ⟨a, b, c, slot⟩ := s
  cases slot with
  | none => rfl
  | some pc =>
    obtain ⟨p, ctx⟩ := pc
    unfold destroyP destroyThreadCtx
    simp only [Bind.bind, Prog.alone_bind, Prog.alone_sys, ctxDeinitP_alone, SysM.bind_assoc]
    rfl

theorem getCtxP_alone (info : Bool) (junk : BitVec 16) (s : DevState) :
    SysM.bind (getCtxP info junk s.keyErr s.keyValid s.slot).alone (fun x => SysM.pure (x.1, { s with slot := x.2 })) =
      getThreadCtx' info junk s := by
  obtain ⟨a, b, c, slot⟩ := s
  unfold getCtxP getThreadCtx'
  dsimp only
  by_cases hc : c ≠ 0
  · rw [if_pos hc, if_pos hc]; rfl
  rw [if_neg hc, if_neg hc]
  by_cases hb : b = false
  · rw [if_pos hb, if_pos hb]; rfl
  rw [if_neg hb, if_neg hb]
  cases slot with
  | some pc => rfl
  | none =>
    simp only [Bind.bind, Prog.alone_bind, Prog.alone_sys, SysM.bind_assoc]
    refine SysM.bind_congr fun r => ?_
    cases r with
    | fail e => rfl
    | ok p =>
      simp only [Prog.alone_bind, ctxInitP_alone, SysM.bind_assoc]
      refine SysM.bind_congr fun r => ?_
      cases r with
      | error err => rfl
      | ok ctx =>
        simp only [Prog.alone_bind, Prog.alone_sys, SysM.bind_assoc]
        refine SysM.bind_congr fun r => ?_
        cases r with
        | ok v => rfl
        | fail e =>
          simp only [Prog.alone_bind, Prog.alone_sys, ctxDeinitP_alone, SysM.bind_assoc]
          rfl

/-! ## What a thread holds -/

abbrev Holds := Held → Prop

/-- What is held after a call. -/
def Holds.after (H : Holds) (c : Sys) (r : Resp) : Holds :=
  fun x => c.gains r = some x ∨ (c.gains r ≠ some x ∧ c.loses ≠ some x ∧ H x)

def Safe {α : Type} (Q : α → Holds → Prop) : Prog α → Holds → Prop
  | .ret a, H => Q a H
  | .ub, _ => False
  | .call c k, H => (∀ x ∈ c.uses, H x) ∧ ∀ r, Safe Q (k r) (H.after c r)

theorem Safe.bind {α β : Type} {Q : α → Holds → Prop} {R : β → Holds → Prop} {f : α → Prog β} {p : Prog α} :
    ∀ {H : Holds}, Safe Q p H → (∀ a H, Q a H → Safe R (f a) H) → Safe R (p.bind f) H := by
  induction p with
  | ret a => intro H h hf; exact hf a H h
  | ub => intro H h; exact h.elim
  | call c k ih => intro H h hf; exact ⟨h.1, fun r => ih r (h.2 r) hf⟩

theorem Safe.mono {α : Type} {Q R : α → Holds → Prop} {p : Prog α} :
    ∀ {H : Holds}, Safe Q p H → (∀ a H, Q a H → R a H) → Safe R p H := by
  induction p with
  | ret a => intro H h hf; exact hf a H h
  | ub => intro H h; exact h.elim
  | call c k ih => intro H h hf; exact ⟨h.1, fun r => ih r (h.2 r) hf⟩

/-- What belongs to a context. -/
def ctxHolds (ctx : CtxDev) : List Held := [.fd ctx.cfd, .ses ctx.cfd ctx.ses]

def slotHolds : Slot842 → List Held
  | none => []
  | some (p, ctx) => .mem p :: ctxHolds ctx

/-- `H` is exactly `l`. -/
def IsList (H : Holds) (l : List Held) : Prop := ∀ x, H x ↔ x ∈ l

theorem IsList.gain {H : Holds} {l : List Held} (h : IsList H l) {c : Sys} {r : Resp} {x : Held} (hg : c.gains r = some x)
    (hl : c.loses = none) : IsList (H.after c r) (x :: l) := by
  intro y
  unfold Holds.after
  rw [hg, hl, List.mem_cons, ← h y]
  by_cases e : x = y
  · exact ⟨fun _ => .inl e.symm, fun _ => .inl (by rw [e])⟩
  · have e' : some x ≠ some y := fun h => e (Option.some.inj h)
    exact ⟨fun h => .inr (h.elim (fun h => absurd h e') (fun h => h.2.2)),
      fun h => .inr ⟨e', by simp, h.resolve_left (fun h => e h.symm)⟩⟩

theorem IsList.same {H : Holds} {l : List Held} (h : IsList H l) {c : Sys} {r : Resp} (hg : c.gains r = none)
    (hl : c.loses = none) : IsList (H.after c r) l := by
  intro y
  unfold Holds.after
  rw [hg, hl, ← h y]
  simp

theorem IsList.lose {H : Holds} {l : List Held} (h : IsList H l) {c : Sys} {r : Resp} {x : Held} (hg : c.gains r = none)
    (hl : c.loses = some x) : IsList (H.after c r) (l.filter (· ≠ x)) := by
  intro y
  unfold Holds.after
  rw [hg, hl, List.mem_filter, ← h y]
  simp only [reduceCtorEq, ne_eq, not_false_eq_true, Option.some.injEq, true_and, false_or, decide_not, Bool.not_eq_true',
    decide_eq_false_iff_not]
  exact ⟨fun h => ⟨h.2, fun e => h.1 e.symm⟩, fun h => ⟨fun e => h.2 e.symm, h.1⟩⟩

theorem IsList.uses {H : Holds} {l : List Held} (h : IsList H l) {c : Sys} (hu : ∀ x ∈ c.uses, x ∈ l) :
    ∀ x ∈ c.uses, H x := fun x hx => (h x).2 (hu x hx)

theorem IsList.congr {H : Holds} {l l' : List Held} (h : IsList H l) (hl : ∀ x, x ∈ l ↔ x ∈ l') : IsList H l' :=
  fun x => (h x).trans (hl x)

/-! ## The functions -/

theorem swap3 {a b c : Held} : ∀ x, x ∈ [a, b, c] ↔ x ∈ [c, b, a] := by
  intro x
  simp only [List.mem_cons, List.not_mem_nil, or_false]
  constructor <;> (intro h; rcases h with h | h | h <;> simp [h])

theorem ctxInitP_safe (info : Bool) (junk : BitVec 16) {H : Holds} {p : Nat} (h : IsList H [.mem p]) :
    Safe (fun r H => match r with
      | .error err => err < 0 ∧ IsList H [.mem p]
      | .ok ctx => IsList H (slotHolds (some (p, ctx)))) (ctxInitP info junk) H := by
  have hneg : ∀ e : Nat, negErrno e < 0 := fun e => by unfold negErrno; omega
  unfold ctxInitP
  refine ⟨h.uses (by simp [Sys.uses]), fun r => ?_⟩
  cases r with
  | fail e => exact ⟨hneg e, h.same rfl rfl⟩
  | ok cfd =>
    have h := h.gain (c := .open) (r := .ok cfd) rfl rfl
    refine ⟨h.uses (by simp [Sys.uses]), fun r => ?_⟩
    have h := h.same (c := .setfd cfd) (r := r) (by cases r <;> rfl) rfl
    cases r with
    | fail e =>
      refine ⟨h.uses (by simp [Sys.uses]), fun r => ⟨hneg e, ?_⟩⟩
      exact (h.lose (c := .close cfd) (r := r) (by cases r <;> rfl) rfl).congr (by simp)
    | ok v =>
      refine ⟨h.uses (by simp [Sys.uses]), fun r => ?_⟩
      cases r with
      | fail e =>
        have h := h.same (c := .gsession cfd) (r := .fail e) rfl rfl
        refine ⟨h.uses (by simp [Sys.uses]), fun r => ⟨hneg e, ?_⟩⟩
        exact (h.lose (c := .close cfd) (r := r) (by cases r <;> rfl) rfl).congr (by simp)
      | ok ses =>
        have h := h.gain (c := .gsession cfd) (r := .ok ses) rfl rfl
        cases info with
        | false => exact h.congr swap3
        | true =>
          refine ⟨h.uses (by simp [Sys.uses]), fun r => ?_⟩
          have h := h.same (c := .sessinfo cfd ses) (r := r) (by cases r <;> rfl) rfl
          cases r with
          | ok v => exact h.congr swap3
          | fail e =>
            refine ⟨h.uses (by simp [Sys.uses]), fun r => ?_⟩
            have h := h.lose (c := .fsession cfd ses) (r := r) (by cases r <;> rfl) rfl
            refine ⟨h.uses (by simp [Sys.uses]), fun r => ⟨hneg e, ?_⟩⟩
            exact (h.lose (c := .close cfd) (r := r) (by cases r <;> rfl) rfl).congr (by simp)

theorem ctxDeinitP_safe {H : Holds} {p : Nat} {ctx : CtxDev} (h : IsList H (slotHolds (some (p, ctx)))) :
    Safe (fun _ H => IsList H [.mem p]) (ctxDeinitP ctx) H := by
  have key : ∀ err : Int, ∀ H : Holds, IsList H [.mem p, .fd ctx.cfd] →
      Safe (fun _ H => IsList H [.mem p]) (Prog.bind (Prog.sys (.close ctx.cfd)) fun r => match r with
        | .fail e => pure (if err = 0 then negErrno e else err)
        | .ok _ => pure err) H := by
    intro err H h
    refine ⟨h.uses (by simp [Sys.uses]), fun r => ?_⟩
    have h : IsList (H.after (.close ctx.cfd) r) [.mem p] :=
      (h.lose (c := .close ctx.cfd) (r := r) (by cases r <;> rfl) rfl).congr (by simp)
    cases r <;> exact h
  refine ⟨h.uses (by simp [Sys.uses, slotHolds, ctxHolds]), fun r => ?_⟩
  have h : IsList (H.after (.fsession ctx.cfd ctx.ses) r) [.mem p, .fd ctx.cfd] :=
    (h.lose (c := .fsession ctx.cfd ctx.ses) (r := r) (by cases r <;> rfl) rfl).congr (by simp [slotHolds, ctxHolds])
  cases r <;> exact key _ _ h

theorem destroyP_safe {H : Holds} {slot : Slot842} (h : IsList H (slotHolds slot)) :
    Safe (fun _ H => IsList H []) (destroyP slot) H := by
  cases slot with
  | none => exact h
  | some pc =>
    obtain ⟨p, ctx⟩ := pc
    refine (ctxDeinitP_safe h).bind fun _ H h => ⟨h.uses (by simp [Sys.uses]), fun r => ?_⟩
    exact (h.lose (c := .free p) (r := r) (by cases r <;> rfl) rfl).congr (by simp)

/-- The end of `get_thread_cryptodev_ctx`: the thread holds what belongs to the stored context, which
is the one returned. -/
def GotCtx (x : Except Int CtxDev × Slot842) (H : Holds) : Prop :=
  IsList H (slotHolds x.2) ∧
  match x.1 with
  | .error err => err < 0 ∧ x.2 = none
  | .ok ctx => ∃ p, x.2 = some (p, ctx)

theorem getCtxP_safe (info : Bool) (junk : BitVec 16) {H : Holds} {slot : Slot842} (h : IsList H (slotHolds slot)) :
    Safe GotCtx (getCtxP info junk 0 true slot) H := by
  unfold getCtxP
  rw [if_neg (by simp), if_neg (by simp)]
  cases slot with
  | some pc => exact ⟨h, pc.1, rfl⟩
  | none =>
    refine ⟨h.uses (by simp [Sys.uses]), fun r => ?_⟩
    cases r with
    | fail e => exact ⟨h.same rfl rfl, by decide, rfl⟩
    | ok p =>
      have h := h.gain (c := .malloc) (r := .ok p) rfl rfl
      refine (ctxInitP_safe info junk h).bind fun r H h => ?_
      cases r with
      | error err =>
        refine ⟨h.2.uses (by simp [Sys.uses]), fun r => ⟨?_, h.1, rfl⟩⟩
        exact (h.2.lose (c := .free p) (r := r) (by cases r <;> rfl) rfl).congr (by simp [slotHolds])
      | ok ctx =>
        refine ⟨h.uses (by simp [Sys.uses, slotHolds]), fun r => ?_⟩
        have h : IsList (H.after (.tssSet p) r) _ := h.same (by cases r <;> rfl) rfl
        cases r with
        | ok v => exact ⟨h, p, rfl⟩
        | fail e =>
          refine (ctxDeinitP_safe h).bind fun _ H h => ⟨h.uses (by simp [Sys.uses]), fun r => ⟨?_, by decide, rfl⟩⟩
          exact (h.lose (c := .free p) (r := r) (by cases r <;> rfl) rfl).congr (by simp [slotHolds])

/-! ## All threads -/

/-- What thread `t` holds after the calls `tr`. -/
def heldBy (tr : ThreadTr) (t : Nat) : Holds := fun x => holder tr x = some t

theorem heldBy_self (tr : ThreadTr) (t : Nat) (c : Sys) (r : Resp) :
    heldBy ((t, c, r) :: tr) t = (heldBy tr t).after c r := by
  funext x
  unfold heldBy Holds.after
  rw [holder]
  by_cases h : c.gains r = some x
  · simp [h]
  · by_cases h' : c.loses = some x
    · simp [h, h']
    · simp [h, h']

/-- A call of another thread on what it holds itself, creating only what nobody holds, changes
nothing. -/
theorem heldBy_other {tr : ThreadTr} {t u : Nat} {c : Sys} {r : Resp} (hne : u ≠ t) (hf : Fresh tr c r)
    (hu : ∀ x ∈ c.uses, holder tr x = some t) : heldBy ((t, c, r) :: tr) u = heldBy tr u := by
  funext x
  unfold heldBy
  rw [holder]
  by_cases h : c.gains r = some x
  · rw [if_pos h, hf x h]
    simp [Ne.symm hne]
  · rw [if_neg h]
    by_cases h' : c.loses = some x
    · rw [if_pos h', hu x (by cases c <;> simp_all [Sys.loses, Sys.uses])]
      simp [Ne.symm hne]
    · rw [if_neg h']

/-- Thread `t`, holding `H`, is all right. -/
def ThOk (H : Holds) : HwThread → Prop
  | .idle slot => IsList H (slotHolds slot)
  | .getting p => Safe GotCtx p H
  | .using ctx slot => IsList H (slotHolds slot) ∧ ∃ p, slot = some (p, ctx)
  | .exiting p => Safe (fun _ H => IsList H []) p H
  | .ended => IsList H []

/-- `tss_create` has not failed. -/
def HwKeyOk (tr : ThreadTr) : Prop := ∀ t e, (t, Sys.tssCreate, Resp.fail e) ∉ tr

structure HwInv (s : HwState) : Prop where
  iso : Isolated s.tr
  th : ∀ t, ThOk (heldBy s.tr t) (s.th t)
  key : s.keyErr = 0
  valid : s.keyValid = s.once

theorem HwInv.setTh {s : HwState} (h : HwInv s) {t : Nat} {x : HwThread} (hx : ThOk (heldBy s.tr t) x) :
    HwInv (s.setTh t x) := by
  refine ⟨h.iso, fun u => ?_, h.key, h.valid⟩
  show ThOk (heldBy s.tr u) (if u = t then x else s.th u)
  by_cases hu : u = t
  · rw [if_pos hu, hu]; exact hx
  · rw [if_neg hu]; exact h.th u

theorem HwInv.call {s : HwState} (h : HwInv s) {t : Nat} {c : Sys} {r : Resp} {x : HwThread} (hf : Fresh s.tr c r)
    (hu : ∀ y ∈ c.uses, heldBy s.tr t y) (hx : ThOk ((heldBy s.tr t).after c r) x) :
    HwInv ({ s with tr := (t, c, r) :: s.tr }.setTh t x) := by
  refine ⟨⟨h.iso, hu⟩, fun u => ?_, h.key, h.valid⟩
  show ThOk (heldBy ((t, c, r) :: s.tr) u) (if u = t then x else s.th u)
  by_cases e : u = t
  · rw [if_pos e, e, heldBy_self]; exact hx
  · rw [if_neg e, heldBy_other e hf hu]; exact h.th u

theorem HwReach.inv {info : Bool} {s : HwState} (h : HwReach info s) : HwKeyOk s.tr → HwInv s := by
  induction h with
  | init => exact fun _ => ⟨trivial, fun t x => by simp [heldBy, HwState.init, holder, slotHolds], rfl, rfl⟩
  | @step s s' _ hs ih =>
    intro hk
    have hk0 : HwKeyOk s.tr := by
      cases hs <;> first
        | exact hk
        | exact fun t e hm => hk t e (List.mem_cons_of_mem _ hm)
    have hi := ih hk0
    cases hs with
    | @first t slot junk r h1 h2 =>
      have h1' := hi.th t
      rw [h1] at h1'
      change IsList (heldBy s.tr t) (slotHolds slot) at h1'
      cases r with
      | fail e => exact absurd (List.mem_cons_self) (hk t e)
      | ok v =>
        have := getCtxP_safe info junk (h1'.same (c := .tssCreate) (r := .ok v) rfl rfl)
        have q := hi.call (t := t) (c := .tssCreate) (r := .ok v) (x := .getting (getCtxP info junk 0 true slot))
          (fun x h => by cases h) (fun x h => by cases h) this
        exact ⟨q.iso, q.th, rfl, rfl⟩
    | @enter t slot junk h1 h2 =>
      have h1' := hi.th t
      rw [h1] at h1'
      change IsList (heldBy s.tr t) (slotHolds slot) at h1'
      refine hi.setTh ?_
      rw [hi.key, hi.valid, h2]
      exact getCtxP_safe info junk h1'
    | @sys t c k r h1 h2 =>
      have h1' := hi.th t
      rw [h1] at h1'
      exact hi.call h2 h1'.1 (h1'.2 r)
    | @failed t err slot h1 =>
      have h1' := hi.th t
      rw [h1] at h1'
      exact hi.setTh h1'.1
    | @got t ctx slot h1 =>
      have h1' := hi.th t
      rw [h1] at h1'
      exact hi.setTh ⟨h1'.1, h1'.2⟩
    | @reject t ctx slot h1 =>
      have h1' := hi.th t
      rw [h1] at h1'
      exact hi.setTh h1'.1
    | @request t ctx slot r h1 =>
      have h1' := hi.th t
      rw [h1] at h1'
      obtain ⟨h3, p, rfl⟩ := h1'
      exact hi.call (fun x h => by cases r <;> cases h) (h3.uses (by simp [Sys.uses, slotHolds, ctxHolds]))
        (h3.same (by cases r <;> rfl) rfl)
    | @exit t slot h1 =>
      have h1' := hi.th t
      rw [h1] at h1'
      change IsList (heldBy s.tr t) (slotHolds slot) at h1'
      exact hi.setTh (destroyP_safe h1')
    | @exitSys t c k r h1 h2 =>
      have h1' := hi.th t
      rw [h1] at h1'
      exact hi.call h2 h1'.1 (h1'.2 r)
    | @exited t h1 =>
      have h1' := hi.th t
      rw [h1] at h1'
      exact hi.setTh h1'

/-! ## `get_hw842_implementation` -/

theorem implReach_ready {s₀ s : ImplState} (hr : s₀.req ≠ 0) (hp : s₀.pref ≠ 0)
    (hpc : ∀ t, s₀.pc t ≠ .writeReq ∧ s₀.pc t ≠ .writePref) (h : ImplReach s₀ s) :
    s.req = s₀.req ∧ s.pref = s₀.pref ∧ ∀ t, s.pc t ≠ .writeReq ∧ s.pc t ≠ .writePref := by
  induction h with
  | init => exact ⟨rfl, rfl, hpc⟩
  | @step s s' _ hs ih =>
    obtain ⟨i1, i2, i3⟩ := ih
    have hset : ∀ (t : Nat) (x : ImplPc), x ≠ .writeReq ∧ x ≠ .writePref →
        ∀ u, (s.setPc t x).pc u ≠ .writeReq ∧ (s.setPc t x).pc u ≠ .writePref := by
      intro t x hx u
      show (if u = t then x else s.pc u) ≠ _ ∧ (if u = t then x else s.pc u) ≠ _
      by_cases e : u = t
      · rw [if_pos e]; exact hx
      · rw [if_neg e]; exact i3 u
    cases hs with
    | @readReq t h1 =>
      rw [if_neg (by rw [i1]; exact hr)]
      exact ⟨i1, i2, hset t _ (by simp)⟩
    | @writeReq t v h1 => exact absurd h1 (i3 t).1
    | @readPref t h1 =>
      rw [if_neg (by rw [i2]; exact hp)]
      exact ⟨i1, i2, hset t _ (by simp)⟩
    | @writePref t v h1 => exact absurd h1 (i3 t).2
    | @again t h1 => exact ⟨i1, i2, hset t _ (by simp)⟩

end Lib842
