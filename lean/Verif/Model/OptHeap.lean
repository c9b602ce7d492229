import Verif.Model.OptComp
import Verif.Model.SwHeap
/-!
# Memory management of the optimised compressor (`/repo/src/serial_optimized/842_compress.cpp`)

`Model/OptComp.lean` leaves out `malloc` and `free`.  `optsw842_compress` allocates two blocks, `struct sw842_param`
(line 586) and `struct bitstream` (bitstream.cpp 96), and has two exits after that: the handler of the exception and the
regular one.  If the buffers are not aligned, everything is left to `sw842_compress` (`Model/SwHeap.lean`).
-/

namespace Lib842

/-- `stream_close(p->stream); free(p);`, 842_compress.cpp 673-674 and 678-679 (`stream_close`: bitstream.cpp 107-110); `s` and
`c` are the blocks of the stream and of `p` -/
def ocompClose (s c : Nat) (hp : Heap) : Option Heap :=
  match hp.free s with
  | none => none
  | some hp => hp.free c

/-- `optsw842_compress`, 842_compress.cpp 569-682, with the heap: the result of the call and the heap on return; `none` if the use of
the heap is undefined.  A failed `malloc` of `p` is followed by `std::fill` on a null pointer (line 588); a failed one of the stream
by `stream_write_bits` (bitstream.cpp 51), as at least the end marker is written. -/
def optsw842CompressH (e : Endian) (ain aout : Nat) (j : OptJunk) (jsw : CompJunk) (inp buf : List Byte) (hp : Heap) :
    Option (Call × Heap) :=
  if inp.length % 8 ≠ 0 then some (.ret (some .EINVAL) buf.length buf, hp)
  else if ain % 8 ≠ 0 ∨ aout % 8 ≠ 0 then sw842CompressH e ain jsw inp buf hp
  else
    match hp.malloc with
    | none => none
    | some (c, hp) =>
      match hp.malloc with
      | none => none
      | some (s, hp) =>
        match ocompBody (.std e) e ain (inp.length / 8 + 1) inp (ocompInit j inp buf) with
        | .ok n p => (ocompClose s c hp).map fun hp => (.ret none n p.s.buf, hp)
        | .err er p => (ocompClose s c hp).map fun hp => (.ret (some er) 0 p.s.buf, hp)
        | .ub => none
        | .timeout => none

end Lib842
