import Verif.SpecSys
import Verif.Model.Chunked
/-!
# The hardware wrapper, `/repo/src/cryptodev/842_interface.c`

Calls into the kernel, the allocator and the thread-specific storage are answered by an arbitrary
environment `env`, which sees the whole history.  Return codes are integers, `-errno`.
Messages on `stderr` are left out, and so is `fprintf` changing `errno` (every `errno` that is
returned is read before).  One thread at a time: everything but `call_once` is thread-local.
-/

namespace Lib842
open Spec

/-- A computation that makes calls.  `none`: undefined behaviour (part of the model only, no counterpart in /repo) -/
def SysM (α : Type) := (SysTr → Sys → Resp) → SysTr → Option (α × SysTr)

namespace SysM

/-- A computation without calls (part of the model only, no counterpart in /repo). -/
def pure {α : Type} (a : α) : SysM α := fun _ tr => some (a, tr)

/-- One computation after the other (part of the model only, no counterpart in /repo). -/
def bind {α β : Type} (x : SysM α) (f : α → SysM β) : SysM β := fun env tr =>
  match x env tr with
  | none => none
  | some (a, tr) => f a env tr

instance : Monad SysM where
  pure := pure
  bind := bind

/-- Make a call and record it (part of the model only, no counterpart in /repo). -/
def call (c : Sys) : SysM Resp := fun env tr => some (env tr c, (c, env tr c) :: tr)

/-- Undefined behaviour (part of the model only, no counterpart in /repo). -/
def ub {α : Type} : SysM α := fun _ _ => none

end SysM

/-- `-errno` after a call that failed with `e` (/repo/src/cryptodev/842_interface.c 43, 51, 61, 71, 101, 109, 183) -/
def negErrno (e : Nat) : Int := -(e + 1 : Int)

/-- `-ENOMEM` (/repo/src/cryptodev/842_interface.c 221, 240, 251) -/
def negENOMEM : Int := -12

/-- `-EINVAL` (/repo/src/cryptodev/842_interface.c 136-164) -/
def negEINVAL : Int := -22

/-- `struct cryptodev_ctx`, 30-34 (of `sess` only the session number) -/
structure CtxDev where
  cfd : Nat
  ses : Nat
  alignmask : BitVec 16
  deriving DecidableEq, Repr

/-- `c842_ctx_init`, 36-94.  `info`: whether `CIOCGSESSINFO` is defined; without it `alignmask` is
not written and keeps the contents `junk` of the allocated memory. -/
def ctxInit (info : Bool) (junk : BitVec 16) : SysM (Except Int CtxDev) := do
  match ← SysM.call .open with
  | .fail e => SysM.pure (.error (negErrno e))
  | .ok cfd =>
  match ← SysM.call (.setfd cfd) with
  | .fail e => do
    let _ ← SysM.call (.close cfd)
    SysM.pure (.error (negErrno e))
  | .ok _ =>
  match ← SysM.call (.gsession cfd) with
  | .fail e => do
    let _ ← SysM.call (.close cfd)
    SysM.pure (.error (negErrno e))
  | .ok ses =>
  if info then
    match ← SysM.call (.sessinfo cfd ses) with
    | .fail e => do
      let _ ← SysM.call (.fsession cfd ses)
      let _ ← SysM.call (.close cfd)
      SysM.pure (.error (negErrno e))
    | .ok v => SysM.pure (.ok ⟨cfd, ses, BitVec.ofNat 16 v⟩)
  else SysM.pure (.ok ⟨cfd, ses, junk⟩)

/-- `c842_ctx_deinit`, 96-115 -/
def ctxDeinit (ctx : CtxDev) : SysM Int := do
  let err : Int ← match ← SysM.call (.fsession ctx.cfd ctx.ses) with
    | .fail e => SysM.pure (negErrno e)
    | .ok _ => SysM.pure 0
  match ← SysM.call (.close ctx.cfd) with
  | .fail e => SysM.pure (if err = 0 then negErrno e else err)
  | .ok _ => SysM.pure err

/-- The static variables of 207-209 and the value the thread has stored under the key. -/
structure DevState where
  /-- `thread_ctx_key_once` has been used -/
  once : Bool
  /-- `thread_ctx_key` has been created -/
  keyValid : Bool
  /-- `thread_ctx_key_err` -/
  keyErr : Int
  /-- the address and the contents of the context stored by `tss_set` -/
  slot : Option (Nat × CtxDev)
  deriving DecidableEq, Repr

/-- At the start of the program (/repo/src/cryptodev/842_interface.c 207-209) -/
def DevState.init : DevState := ⟨false, false, 0, none⟩

/-- `create_thread_ctx_key`, 218-224: the last statement is executed in both cases. -/
def createThreadCtxKey (s : DevState) : SysM DevState := do
  let s ← match ← SysM.call .tssCreate with
    | .fail _ => SysM.pure { s with keyErr := negENOMEM }
    | .ok _ => SysM.pure { s with keyValid := true }
  SysM.pure { s with keyErr := 0 }

/-- `destroy_thread_ctx`, 211-216, which is run when the thread ends -/
def destroyThreadCtx (s : DevState) : SysM DevState := do
  match s.slot with
  | none => SysM.pure s
  | some (p, ctx) => do
    let _ ← ctxDeinit ctx
    let _ ← SysM.call (.free p)
    SysM.pure { s with slot := none }

/-- `get_thread_cryptodev_ctx` after `call_once`, 229-255.  Using a key that was not created is
undefined. -/
def getThreadCtx' (info : Bool) (junk : BitVec 16) (s : DevState) : SysM (Except Int CtxDev × DevState) :=
  if s.keyErr ≠ 0 then SysM.pure (.error s.keyErr, s)
  else if s.keyValid = false then SysM.ub
  else match s.slot with
  | some (_, ctx) => SysM.pure (.ok ctx, s)
  | none => do
    match ← SysM.call .malloc with
    | .fail _ => SysM.pure (.error negENOMEM, s)
    | .ok p => do
      match ← ctxInit info junk with
      | .error err => do
        let _ ← SysM.call (.free p)
        SysM.pure (.error err, s)
      | .ok ctx => do
        match ← SysM.call (.tssSet p) with
        | .fail _ => do
          let _ ← ctxDeinit ctx
          let _ ← SysM.call (.free p)
          SysM.pure (.error negENOMEM, s)
        | .ok _ => SysM.pure (.ok ctx, { s with slot := some (p, ctx) })

/-- `get_thread_cryptodev_ctx`, 226-256 -/
def getThreadCtx (info : Bool) (junk : BitVec 16) (s : DevState) : SysM (Except Int CtxDev × DevState) := do
  let s ← if s.once then SysM.pure s else createThreadCtxKey { s with once := true }
  getThreadCtx' info junk s

/-- `hw842_get_required_alignment`, 258-268 -/
def requiredAlignment (info : Bool) (junk : BitVec 16) (s : DevState) : SysM (Nat × DevState) := do
  match ← getThreadCtx info junk s with
  | (.error _, s) => SysM.pure (0x10000, s)
  | (.ok ctx, s) => SysM.pure (ctx.alignmask.toNat + 1, s)

/-! ## Requests -/

/-- `is_pointer_aligned`, 117-122: the mask is promoted to `int`, so that its complement is extended
with ones. -/
def isPointerAligned (ptr : BitVec 64) (alignmask : BitVec 16) : Bool :=
  let m := alignmask.zeroExtend 64
  ptr = ((ptr + m) &&& ~~~m)

/-- The fields of `struct crypt_op` that are set, 171-181 -/
structure CryptOp where
  ses : Nat
  op : BitVec 16
  len : BitVec 32
  dlen : BitVec 32
  src : BitVec 64
  dst : BitVec 64
  numchunks : BitVec 32
  chunklens : List (BitVec 32)
  chunkdlens : List (BitVec 32)
  deriving DecidableEq, Repr

/-- What the driver does with a request on a descriptor: it fails and sets `errno`, or succeeds.
In both cases it may write the output buffer and the arrays `chunkrets` and `chunkdlens` (the `ioctl` of /repo/src/cryptodev/842_interface.c 182) -/
structure DriverRes where
  res : Resp
  rets : List Int
  out : List Byte
  chunkdlens : List (BitVec 32)

/-- The memory of the caller that may change (`out`, `olens`, `rets`, /repo/src/cryptodev/842_interface.c 124-127) -/
structure DevMem where
  rets : List Int
  out : List Byte
  olens : List (BitVec 64)
  deriving DecidableEq, Repr

/-- `UINT32_MAX` -/
def UINT32_MAX : Nat := 2 ^ 32 - 1

/-- The loop of 157-169: the translated lengths so far; `none`: `-EINVAL` -/
def convLens (ilens olens : List (BitVec 64)) : Nat → Option (Option (List (BitVec 32) × List (BitVec 32)))
  | 0 => some (some ([], []))
  | k + 1 => do
    match ← convLens ilens olens k with
    | none => some none
    | some (il, ol) => do
      let i ← ilens[k]?
      if i > BitVec.ofNat 64 (UINT32_MAX - 1) ∧ i ≠ BitVec.allOnes 64 then some none
      else do
        let o ← olens[k]?
        if o > BitVec.ofNat 64 UINT32_MAX then some none
        else some (some (il ++ [(if i ≠ BitVec.allOnes 64 then i else BitVec.ofNat 64 UINT32_MAX).truncate 32],
            ol ++ [o.truncate 32]))

/-- The loop of 189-190 -/
def copyLens (src : List (BitVec 32)) : Nat → List (BitVec 64) → Option (List (BitVec 64))
  | 0, olens => some olens
  | k + 1, olens => do
    let olens ← copyLens src k olens
    let v ← src[k]?
    if k < olens.length then some (olens.set k (v.zeroExtend 64)) else none

/-- `c842_compress_chunked`, 124-193.  `maxChunks` is `CRYPTODEV_COMP_MAX_CHUNKS`, of a header that
is not part of the repository.  The result tells also which request was made.  `none`: an access
outside of an array. -/
def devChunked (maxChunks : Nat) (drv : Nat → CryptOp → DevMem → DriverRes) (ctx : CtxDev) (op : BitVec 16)
    (numchunks : BitVec 64) (inp : BitVec 64) (istride : BitVec 64) (ilens : List (BitVec 64))
    (out : BitVec 64) (ostride : BitVec 64) (m : DevMem) : Option (Int × Option CryptOp × DevMem) :=
  if ctx.alignmask ≠ 0 ∧ !isPointerAligned inp ctx.alignmask then some (negEINVAL, none, m)
  else if ctx.alignmask ≠ 0 ∧ !isPointerAligned out ctx.alignmask then some (negEINVAL, none, m)
  else if numchunks ≠ 0 ∧ istride > BitVec.ofNat 64 UINT32_MAX / numchunks then some (negEINVAL, none, m)
  else if numchunks ≠ 0 ∧ ostride > BitVec.ofNat 64 UINT32_MAX / numchunks then some (negEINVAL, none, m)
  else if numchunks.toNat > maxChunks then some (negEINVAL, none, m)
  else do
    match ← convLens ilens m.olens numchunks.toNat with
    | none => some (negEINVAL, none, m)
    | some (il, ol) => do
      let cryp : CryptOp := ⟨ctx.ses, op, (istride * numchunks).truncate 32, (ostride * numchunks).truncate 32, inp, out,
        numchunks.truncate 32, il, ol⟩
      let d := drv ctx.cfd cryp m
      match d.res with
      | .fail e => some (negErrno e, some cryp, { m with rets := d.rets, out := d.out })
      | .ok _ => do
        let olens ← copyLens d.chunkdlens numchunks.toNat m.olens
        some (0, some cryp, { rets := d.rets, out := d.out, olens := olens })

/-- `c842_compress`, 195-202; `cret0` is the prior contents of the variable `cret`. -/
def devCompress (maxChunks : Nat) (drv : Nat → CryptOp → DevMem → DriverRes) (ctx : CtxDev) (op : BitVec 16)
    (inp : BitVec 64) (ilen : BitVec 64) (out : BitVec 64) (cret0 : Int) (buf : List Byte) (olen : BitVec 64) :
    Option (Int × Option CryptOp × List Byte × BitVec 64) := do
  let (ret, req, m) ← devChunked maxChunks drv ctx op 1 inp ilen [ilen] out olen ⟨[cret0], buf, [olen]⟩
  let olen ← m.olens[0]?
  let cret ← m.rets[0]?
  some (if ret ≠ 0 then ret else cret, req, m.out, olen)

end Lib842
