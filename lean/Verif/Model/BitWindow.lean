import Verif.Model.Basic
/-!
# The 64-bit window of the word-oriented decoders

`optsw842_decompress`, the OpenCL kernel and the CUDA kernel read the input one
64-bit word at a time and hand out bits from a one-word window: `buffer` holds the
`bits` unread bits of the current word, left aligned.  The arithmetic of the three
`read_bits` functions is the same; only the way the next word is fetched differs.
-/

namespace Lib842

/-- `x >> k` on `uint64_t`: shifting by a negative amount or by 64 or more is
undefined. -/
def cshr (x : BitVec 64) (k : Int) : Option (BitVec 64) :=
  if 0 ≤ k ∧ k < 64 then some (x >>> k.toNat) else none

/-- `x << k` on `uint64_t`, likewise. -/
def cshl (x : BitVec 64) (k : Int) : Option (BitVec 64) :=
  if 0 ≤ k ∧ k < 64 then some (x <<< k.toNat) else none

/-- The branch of `read_bits` that needs no new word: value, new buffer, new bit
count.  `/repo/src/serial_optimized/842_decompress.cpp` 72, 81-84;
`/repo/src/ocl/decompress.cl` 115, 141-144; `/repo/src/cuda/842_decompress.cu` 78, 95-98. -/
def winHit (buffer : BitVec 64) (bits n : Nat) : Option (BitVec 64 × BitVec 64 × Nat) :=
  match cshr buffer (64 - n), cshl buffer n with
  | some value, some buffer' => some (value, buffer', bits - n)
  | _, _ => none

/-- The branch of `read_bits` that takes the bits missing in the window from the
word `w` just fetched.  842_decompress.cpp 72, 75-80; decompress.cl 115, 136-140;
842_decompress.cu 78, 91-94 (the CUDA version shifts by `n - p->bits` in one step, which can
be a shift by 64; see `Model/Cuda`).  `p->bits` is below 64 and `n` at most 64, so the
sum `p->bits + WSIZE - n` fits the `uint8_t`/`uint32_t` field. -/
def winMiss (buffer : BitVec 64) (bits n : Nat) (w : BitVec 64) :
    Option (BitVec 64 × BitVec 64 × Nat) :=
  match cshr buffer (64 - n), cshr w (64 - (n - bits)), cshl w (n - bits - 1) with
  | some value, some value', some shifted =>
    let bits' := bits + 64 - n
    some (value ||| value', (shifted <<< 1) * (if bits' > 0 then 1#64 else 0#64), bits')
  | _, _, _ => none

end Lib842
