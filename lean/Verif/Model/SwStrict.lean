import Verif.Model.SwComp
/-!
# `sw842_compress` with `SW842_STRICT`

`SW842_STRICT` (src/serial/842_compress.c 88-101) is 0 in the repository.  The other value only matters in lines 566-573.
-/

namespace Lib842

/-- `sw842_compress`, 842_compress.c 537-689 with `SW842_STRICT` 1: lines 566-573, then as usual.  The clean-up of the
refused call (684-687) meets the empty tables of 548-550. -/
def strictCompress (e : Endian) (addr : Nat) (j : CompJunk) (inp buf : List Byte) : Call :=
  if inp.length % 8 ≠ 0 then .ret (some .EINVAL) 0 buf
  else sw842Compress e addr j inp buf

end Lib842
