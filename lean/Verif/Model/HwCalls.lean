import Verif.Model.Cryptodev
/-!
# The functions of the hardware implementation, `/repo/src/cryptodev/842_interface.c` 275-321

Each gets the context of the thread (`getThreadCtx`) and makes one request (`devChunked`, `devCompress`).
-/

namespace Lib842
open Spec

/-- `COP_ENCRYPT` of `<crypto/cryptodev.h>` (a header outside of the repository; used in /repo/src/cryptodev/842_interface.c 282, 304) -/
def copEncrypt : BitVec 16 := 0

/-- `COP_DECRYPT` of `<crypto/cryptodev.h>` (a header outside of the repository; used in /repo/src/cryptodev/842_interface.c 292, 318) -/
def copDecrypt : BitVec 16 := 1

/-- `hw842_compress_chunked`, /repo/src/cryptodev/842_interface.c 295-307 -/
def hw842CompressChunked (info : Bool) (junk : BitVec 16) (s : DevState) (maxChunks : Nat) (drv : Nat → CryptOp → DevMem → DriverRes)
    (numchunks inp istride : BitVec 64) (ilens : List (BitVec 64)) (out ostride : BitVec 64) (m : DevMem) : SysM (Int × DevMem × DevState) := do
  match ← getThreadCtx info junk s with
  | (.error err, s) => SysM.pure (err, m, s)
  | (.ok ctx, s) =>
    match devChunked maxChunks drv ctx copEncrypt numchunks inp istride ilens out ostride m with
    | none => SysM.ub
    | some (ret, _, m) => SysM.pure (ret, m, s)

/-- `hw842_decompress_chunked`, /repo/src/cryptodev/842_interface.c 309-321 -/
def hw842DecompressChunked (info : Bool) (junk : BitVec 16) (s : DevState) (maxChunks : Nat) (drv : Nat → CryptOp → DevMem → DriverRes)
    (numchunks inp istride : BitVec 64) (ilens : List (BitVec 64)) (out ostride : BitVec 64) (m : DevMem) : SysM (Int × DevMem × DevState) := do
  match ← getThreadCtx info junk s with
  | (.error err, s) => SysM.pure (err, m, s)
  | (.ok ctx, s) =>
    match devChunked maxChunks drv ctx copDecrypt numchunks inp istride ilens out ostride m with
    | none => SysM.ub
    | some (ret, _, m) => SysM.pure (ret, m, s)

/-- `hw842_compress`, /repo/src/cryptodev/842_interface.c 275-283: result, output buffer, `*olen` -/
def hw842Compress (info : Bool) (junk : BitVec 16) (s : DevState) (maxChunks : Nat) (drv : Nat → CryptOp → DevMem → DriverRes)
    (inp ilen out : BitVec 64) (cret0 : Int) (buf : List Byte) (olen : BitVec 64) : SysM (Int × List Byte × BitVec 64 × DevState) := do
  match ← getThreadCtx info junk s with
  | (.error err, s) => SysM.pure (err, buf, olen, s)
  | (.ok ctx, s) =>
    match devCompress maxChunks drv ctx copEncrypt inp ilen out cret0 buf olen with
    | none => SysM.ub
    | some (ret, _, buf, olen) => SysM.pure (ret, buf, olen, s)

/-- `hw842_decompress`, /repo/src/cryptodev/842_interface.c 285-293 -/
def hw842Decompress (info : Bool) (junk : BitVec 16) (s : DevState) (maxChunks : Nat) (drv : Nat → CryptOp → DevMem → DriverRes)
    (inp ilen out : BitVec 64) (cret0 : Int) (buf : List Byte) (olen : BitVec 64) : SysM (Int × List Byte × BitVec 64 × DevState) := do
  match ← getThreadCtx info junk s with
  | (.error err, s) => SysM.pure (err, buf, olen, s)
  | (.ok ctx, s) =>
    match devCompress maxChunks drv ctx copDecrypt inp ilen out cret0 buf olen with
    | none => SysM.ub
    | some (ret, _, buf, olen) => SysM.pure (ret, buf, olen, s)

end Lib842
