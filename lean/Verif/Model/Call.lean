import Verif.Model.Basic
/-!
# Results of the public entry points, helper macros
-/

namespace Lib842

/-- Result of calling an entry point `f(in, ilen, out, &olen)`: the return code
(`none` is 0, `some e` is `-e`), the value of `*olen` on return, and the
contents of the output buffer on return; or undefined behaviour; or a run that
exceeds the fuel given to a loop. -/
inductive Call where
  | ret (rc : Option Errno) (olen : Nat) (buf : List Byte)
  | ub
  | timeout
  deriving DecidableEq, Repr

/-- `GENMASK_ULL(h, l)`, `/repo/src/serial/kerneldeps.h` 11-12 -/
def genmask (h l : Nat) : BitVec 64 :=
  (BitVec.allOnes 64 <<< l) &&& (BitVec.allOnes 64 >>> (63 - h))

/-- `round_up(x, 8)` for `x ≥ 1`, kerneldeps.h 14-15 -/
def roundUp8 (x : Nat) : Nat := ((x - 1) ||| 7) + 1

/-- `round_down(x, y)`, kerneldeps.h 16, for `y` a power of two (the mask is
written as a remainder) -/
def roundDown (x y : Nat) : Nat := x - x % y

/-- `DIV_ROUND_UP(n, d)`, kerneldeps.h 18 -/
def divRoundUp (n d : Nat) : Nat := (n + d - 1) / d

/-- Read element `i` of a C array of `n` elements (e.g. /repo/src/serial_optimized/842_compress.cpp 81-87) -/
def arrGet {α : Type} (n : Nat) (f : Nat → α) (i : Nat) : Option α :=
  if i < n then some (f i) else none

/-- Replace element `i` of a function (part of the model only, no counterpart in /repo) -/
def upd {ι α : Type} [DecidableEq ι] (f : ι → α) (i : ι) (v : α) : ι → α :=
  fun j => if j = i then v else f j

/-- Write element `i` of a C array of `n` elements (e.g. /repo/src/serial_optimized/842_compress.cpp 414-428) -/
def arrSet {α : Type} (n : Nat) (f : Nat → α) (i : Nat) (v : α) : Option (Nat → α) :=
  if i < n then some (upd f i v) else none

end Lib842
