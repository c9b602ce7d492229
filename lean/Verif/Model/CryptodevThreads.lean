import Verif.Model.Cryptodev
/-!
# Several threads in the hardware wrapper, `/repo/src/cryptodev/842_interface.c`

The functions of `Verif.Model.Cryptodev` again, as trees of system calls, so that the calls of several
threads can be interleaved.  `call_once` (228) is one step, as other threads wait for it.
`tss_get` and `tss_set` work on the value of the calling thread.
-/

namespace Lib842
open Spec

/-- A computation of one thread: it ends, does something undefined, or makes a call and goes on
depending on the result (part of the model only, no counterpart in /repo) -/
inductive Prog (α : Type) where
  | ret (a : α)
  | ub
  | call (c : Sys) (k : Resp → Prog α)

namespace Prog

/-- One computation after the other (part of the model only, no counterpart in /repo). -/
def bind {α β : Type} : Prog α → (α → Prog β) → Prog β
  | .ret a, f => f a
  | .ub, _ => .ub
  | .call c k, f => .call c fun r => (k r).bind f

instance : Monad Prog where
  pure := .ret
  bind := bind

/-- A call whose result is the result of the computation (part of the model only, no counterpart in /repo) -/
def sys (c : Sys) : Prog Resp := .call c .ret

/-- The calls of one thread alone, answered by `env` (part of the model only, no counterpart in /repo) -/
def alone {α : Type} : Prog α → SysM α
  | .ret a => SysM.pure a
  | .ub => SysM.ub
  | .call c k => SysM.bind (SysM.call c) fun r => (k r).alone

end Prog

/-- The value stored under the key: the address of the context and its contents (/repo/src/cryptodev/842_interface.c 207, 232, 248) -/
abbrev Slot842 := Option (Nat × CtxDev)

/-- `c842_ctx_init`, 36-94 (see `ctxInit`) -/
def ctxInitP (info : Bool) (junk : BitVec 16) : Prog (Except Int CtxDev) := do
  match ← Prog.sys .open with
  | .fail e => pure (.error (negErrno e))
  | .ok cfd =>
  match ← Prog.sys (.setfd cfd) with
  | .fail e => do
    let _ ← Prog.sys (.close cfd)
    pure (.error (negErrno e))
  | .ok _ =>
  match ← Prog.sys (.gsession cfd) with
  | .fail e => do
    let _ ← Prog.sys (.close cfd)
    pure (.error (negErrno e))
  | .ok ses =>
  if info then
    match ← Prog.sys (.sessinfo cfd ses) with
    | .fail e => do
      let _ ← Prog.sys (.fsession cfd ses)
      let _ ← Prog.sys (.close cfd)
      pure (.error (negErrno e))
    | .ok v => pure (.ok ⟨cfd, ses, BitVec.ofNat 16 v⟩)
  else pure (.ok ⟨cfd, ses, junk⟩)

/-- `c842_ctx_deinit`, 96-115 (see `ctxDeinit`) -/
def ctxDeinitP (ctx : CtxDev) : Prog Int := do
  let err : Int ← match ← Prog.sys (.fsession ctx.cfd ctx.ses) with
    | .fail e => pure (negErrno e)
    | .ok _ => pure 0
  match ← Prog.sys (.close ctx.cfd) with
  | .fail e => pure (if err = 0 then negErrno e else err)
  | .ok _ => pure err

/-- `destroy_thread_ctx`, 211-216, which is run when the thread ends if it has stored a context -/
def destroyP (slot : Slot842) : Prog Unit := do
  match slot with
  | none => pure ()
  | some (p, ctx) => do
    let _ ← ctxDeinitP ctx
    let _ ← Prog.sys (.free p)
    pure ()

/-- `get_thread_cryptodev_ctx` after `call_once`, 229-255 (see `getThreadCtx'`): the result and what
the thread has stored then. -/
def getCtxP (info : Bool) (junk : BitVec 16) (keyErr : Int) (keyValid : Bool) (slot : Slot842) :
    Prog (Except Int CtxDev × Slot842) :=
  if keyErr ≠ 0 then .ret (.error keyErr, slot)
  else if keyValid = false then .ub
  else match slot with
  | some (p, ctx) => .ret (.ok ctx, some (p, ctx))
  | none => do
    match ← Prog.sys .malloc with
    | .fail _ => pure (.error negENOMEM, none)
    | .ok p => do
      match ← ctxInitP info junk with
      | .error err => do
        let _ ← Prog.sys (.free p)
        pure (.error err, none)
      | .ok ctx => do
        match ← Prog.sys (.tssSet p) with
        | .fail _ => do
          let _ ← ctxDeinitP ctx
          let _ ← Prog.sys (.free p)
          pure (.error negENOMEM, none)
        | .ok _ => pure (.ok ctx, some (p, ctx))

/-- Where a thread is (/repo/src/cryptodev/842_interface.c 226-321) -/
inductive HwThread
  /-- between calls of the library -/
  | idle (slot : Slot842)
  /-- in `get_thread_cryptodev_ctx`, after `call_once` -/
  | getting (p : Prog (Except Int CtxDev × Slot842))
  /-- in `c842_compress_chunked`, 124-193, before `ioctl(…, CIOCCRYPT, …)` -/
  | using (ctx : CtxDev) (slot : Slot842)
  /-- in the destructor of the thread-specific storage -/
  | exiting (p : Prog Unit)
  | ended

/-- The static variables of 207-209, the threads, and the calls so far. -/
structure HwState where
  once : Bool
  keyValid : Bool
  keyErr : Int
  th : Nat → HwThread
  tr : ThreadTr

/-- At the start of the program (/repo/src/cryptodev/842_interface.c 207-209) -/
def HwState.init : HwState := ⟨false, false, 0, fun _ => .idle none, []⟩

/-- Replace the state of one thread (part of the model only, no counterpart in /repo). -/
def HwState.setTh (s : HwState) (t : Nat) (x : HwThread) : HwState :=
  { s with th := fun u => if u = t then x else s.th u }

/-- What can happen next.  `hw842_compress` etc., 275-321, get the context, and then make one
request on it or reject the arguments. -/
inductive HwStep (info : Bool) : HwState → HwState → Prop
  /-- first call of `call_once`, 228, with `create_thread_ctx_key`, 218-224 -/
  | first {s : HwState} {t : Nat} {slot : Slot842} {junk : BitVec 16} {r : Resp} : s.th t = .idle slot → s.once = false →
      HwStep info s
        ({ s with once := true, keyValid := (match r with | .ok _ => true | .fail _ => s.keyValid), keyErr := 0,
                  tr := (t, .tssCreate, r) :: s.tr }.setTh t
          (.getting (getCtxP info junk 0 (match r with | .ok _ => true | .fail _ => s.keyValid) slot)))
  | enter {s : HwState} {t : Nat} {slot : Slot842} {junk : BitVec 16} : s.th t = .idle slot → s.once = true →
      HwStep info s (s.setTh t (.getting (getCtxP info junk s.keyErr s.keyValid slot)))
  | sys {s : HwState} {t : Nat} {c : Sys} {k : Resp → Prog (Except Int CtxDev × Slot842)} {r : Resp} :
      s.th t = .getting (.call c k) → Fresh s.tr c r →
      HwStep info s ({ s with tr := (t, c, r) :: s.tr }.setTh t (.getting (k r)))
  /-- the error is returned, 280, 290, 301, 315 -/
  | failed {s : HwState} {t : Nat} {err : Int} {slot : Slot842} : s.th t = .getting (.ret (.error err, slot)) →
      HwStep info s (s.setTh t (.idle slot))
  | got {s : HwState} {t : Nat} {ctx : CtxDev} {slot : Slot842} : s.th t = .getting (.ret (.ok ctx, slot)) →
      HwStep info s (s.setTh t (.using ctx slot))
  /-- the arguments are rejected, 133-169 -/
  | reject {s : HwState} {t : Nat} {ctx : CtxDev} {slot : Slot842} : s.th t = .using ctx slot →
      HwStep info s (s.setTh t (.idle slot))
  /-- the request, 182 -/
  | request {s : HwState} {t : Nat} {ctx : CtxDev} {slot : Slot842} {r : Resp} : s.th t = .using ctx slot →
      HwStep info s ({ s with tr := (t, .crypt ctx.cfd ctx.ses, r) :: s.tr }.setTh t (.idle slot))
  | exit {s : HwState} {t : Nat} {slot : Slot842} : s.th t = .idle slot →
      HwStep info s (s.setTh t (.exiting (destroyP slot)))
  | exitSys {s : HwState} {t : Nat} {c : Sys} {k : Resp → Prog Unit} {r : Resp} :
      s.th t = .exiting (.call c k) → Fresh s.tr c r →
      HwStep info s ({ s with tr := (t, c, r) :: s.tr }.setTh t (.exiting (k r)))
  | exited {s : HwState} {t : Nat} : s.th t = .exiting (.ret ()) → HwStep info s (s.setTh t .ended)

/-- The states that occur (of /repo/src/cryptodev/842_interface.c 204-321) -/
inductive HwReach (info : Bool) : HwState → Prop
  | init : HwReach info .init
  | step {s s' : HwState} : HwReach info s → HwStep info s s' → HwReach info s'

/-! ## `get_hw842_implementation` -/

/-- Where a thread is in `get_hw842_implementation`, 323-340, by the next access to the static
variable `hw842_implementation`. -/
inductive ImplPc
  /-- 332, before reading `required_alignment` -/
  | readReq
  /-- 333, before writing `required_alignment` -/
  | writeReq
  /-- 336, before reading `preferred_alignment` -/
  | readPref
  /-- 337, before writing `preferred_alignment` -/
  | writePref
  /-- 339 -/
  | done
  deriving DecidableEq, Repr

/-- The fields and the threads (/repo/src/cryptodev/842_interface.c 324-331) -/
structure ImplState where
  req : Nat
  pref : Nat
  pc : Nat → ImplPc

/-- Move one thread on (part of the model only, no counterpart in /repo). -/
def ImplState.setPc (s : ImplState) (t : Nat) (x : ImplPc) : ImplState :=
  { s with pc := fun u => if u = t then x else s.pc u }

/-- What can happen next, for any results of `hw842_get_required_alignment` (which has no access to
the variable) and `sysconf`.  A thread that is done may call the function again. -/
inductive ImplStep : ImplState → ImplState → Prop
  | readReq {s : ImplState} {t : Nat} : s.pc t = .readReq →
      ImplStep s (s.setPc t (if s.req = 0 then .writeReq else .readPref))
  | writeReq {s : ImplState} {t v : Nat} : s.pc t = .writeReq → ImplStep s ({ s with req := v }.setPc t .readPref)
  | readPref {s : ImplState} {t : Nat} : s.pc t = .readPref →
      ImplStep s (s.setPc t (if s.pref = 0 then .writePref else .done))
  | writePref {s : ImplState} {t v : Nat} : s.pc t = .writePref → ImplStep s ({ s with pref := v }.setPc t .done)
  | again {s : ImplState} {t : Nat} : s.pc t = .done → ImplStep s (s.setPc t .readReq)

/-- The states that occur after `s₀` (executions of /repo/src/cryptodev/842_interface.c 323-340) -/
inductive ImplReach (s₀ : ImplState) : ImplState → Prop
  | init : ImplReach s₀ s₀
  | step {s s' : ImplState} : ImplReach s₀ s → ImplStep s s' → ImplReach s₀ s'

/-- At the start of the program, 329-330 -/
def ImplState.init : ImplState := ⟨0, 0, fun _ => .readReq⟩

/-- The next access of a thread: the field (`false`: `required_alignment`) and whether it writes (/repo/src/cryptodev/842_interface.c 332-337) -/
def ImplPc.access : ImplPc → Option (Bool × Bool)
  | .readReq => some (false, false)
  | .writeReq => some (false, true)
  | .readPref => some (true, false)
  | .writePref => some (true, true)
  | .done => none

end Lib842
