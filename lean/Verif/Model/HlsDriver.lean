import Verif.Model.Hls
/-!
# The driver of the HLS tokenizer (`main` in `/repo/src/hls/842_decomp.cpp`)

`main` (842_decomp.cpp 447-506, compiled because of `#define NO_SYNTH`, line 4) feeds one transfer to
`opcode_tokenizer` and prints op code and parameters of every token.  It is the only consumer of tokens in the
repository.  Left out: the text of the output.
-/

namespace Lib842

/-- `x >>= k`; nothing is left of `x` if `k` is its width (/repo/src/hls/842_decomp.cpp 500) -/
def apShr (x : List Bool) (k : Nat) : List Bool := (List.replicate k false ++ x).take x.length

/-- One token: the op code and the parameters that are printed, 842_decomp.cpp 494-503 -/
def hlsRead (t : HlsTok) : Except HlsStop (Nat × Nat) := do
  let op ← apGet t.data 68 64
  let len := hlsParamLength (apVal op)
  let param ← apGet t.data 63 0
  if 64 < len then .error .range
  else pure (apVal op, apVal (apShr param (64 - len)))

/-- The loop, 842_decomp.cpp 492-504: what is printed, and what is left in the stream of tokens. -/
def hlsPrint : List HlsTok → Except HlsStop (List (Nat × Nat) × List HlsTok)
  | [] => .error .blocked
  | t :: ts => do
    let p ← hlsRead t
    if t.last then pure ([p], ts)
    else do
      let (ps, left) ← hlsPrint ts
      pure (p :: ps, left)

/-- An `ap_uint<64>` -/
def apOf64 (v : BitVec 64) : List Bool := (List.range 64).map fun i => v.getLsbD (63 - i)

/-- The transfer of `main`, 842_decomp.cpp 449-457; `(element1, element0)` is a concatenation. -/
def hlsMainInput : List HlsIn :=
  [{ data := apOf64 0x000000000000809F ++ apOf64 0x9991918989818101, last := true }]

/-- Tokenizer and driver on an input stream, 842_decomp.cpp 486-504 -/
def hlsDriver (inp : List HlsIn) : Option (Except HlsStop (List (Nat × Nat) × List HlsTok)) :=
  (hlsTokenizer inp).map fun r => r.bind hlsPrint

end Lib842
