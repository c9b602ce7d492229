import Verif.Model.Templates
/-!
# HLS opcode tokenizer (`/repo/src/hls/842_decomp.cpp`)

An `ap_uint<N>` is a list of `N` bits, most significant bit first.  Only
`opcode_tokenizer` and what it calls is modelled; the rest of the file is disabled
(`#ifdef NOSYNTH`, 842_decomp.cpp 226) or a comment.
-/

namespace Lib842

/-- Why the tokenizer does not continue: `in.read()` on a stream that delivers nothing
more, or a bit range outside of an `ap_uint` (/repo/src/hls/842_decomp.cpp 173, 205; ranges e.g. 207-209) -/
inductive HlsStop
  | blocked
  | range
  deriving DecidableEq, Repr

/-- `x(hi, lo)` (/repo/src/hls/842_decomp.cpp 58-73, 190, 216) -/
def apGet (x : List Bool) (hi lo : Nat) : Except HlsStop (List Bool) :=
  if lo ≤ hi ∧ hi < x.length then .ok ((x.drop (x.length - 1 - hi)).take (hi - lo + 1))
  else .error .range

/-- `x(hi, lo) = v` where `v` has that many bits (/repo/src/hls/842_decomp.cpp 175, 186, 195, 207, 214) -/
def apSet (x : List Bool) (hi lo : Nat) (v : List Bool) : Except HlsStop (List Bool) :=
  if lo ≤ hi ∧ hi < x.length ∧ v.length = hi - lo + 1 then
    .ok (x.take (x.length - 1 - hi) ++ v ++ x.drop (x.length - lo))
  else .error .range

/-- `x <<= k` (/repo/src/hls/842_decomp.cpp 219) -/
def apShl (x : List Bool) (k : Nat) : List Bool :=
  (x ++ List.replicate k false).drop k

/-- The value of an `ap_uint` (/repo/src/hls/842_decomp.cpp 191, 200) -/
def apVal (x : List Bool) : Nat := x.foldl (fun a b => 2 * a + b.toNat) 0

/-- `OP_END` as an `ap_uint<5>` -/
def apOpEnd : List Bool := [true, true, true, true, false]

/-- `input_stream_element`, 842_decomp.cpp 34-39, 46: 128 bits and the `last` flag (`keep` and
`strb` are not used). -/
structure HlsIn where
  data : List Bool
  last : Bool
  deriving DecidableEq, Repr

/-- `tokenized_stream_element`, 842_decomp.cpp 41-44 -/
structure HlsTok where
  data : List Bool
  last : Bool
  deriving DecidableEq, Repr

/-- The ranges of `input` on the right-hand sides in `swap_endianness_input`, 842_decomp.cpp
58-73, from the last assignment (the top byte of `output`) to the first. -/
def swapRanges : List (Nat × Nat) :=
  [(7, 0), (15, 8), (23, 16), (31, 24), (39, 32), (47, 40), (55, 48), (63, 56),
   (71, 64), (79, 72), (87, 80), (95, 88), (103, 96), (111, 104), (119, 112), (127, 120)]

/-- The bits in these ranges, one after the other (/repo/src/hls/842_decomp.cpp 58-73) -/
def apRanges (x : List Bool) : List (Nat × Nat) → Except HlsStop (List Bool)
  | [] => pure []
  | r :: rs => do
    let a ← apGet x r.1 r.2
    let b ← apRanges x rs
    pure (a ++ b)

/-- `swap_endianness_input`, 842_decomp.cpp 53-76 -/
def swapEndiannessInput (x : List Bool) : Except HlsStop (List Bool) := apRanges x swapRanges

/-- The locals of `opcode_tokenizer` and the two streams (/repo/src/hls/842_decomp.cpp 166-179) -/
structure HlsS where
  /-- `input_buffer`, 266 bits -/
  buffer : List Bool
  /-- `input_buffer_bits`, `ap_uint<9>` -/
  bits : Nat
  /-- `input.last` -/
  last : Bool
  /-- what the input stream will still deliver -/
  inp : List HlsIn
  /-- what has been written to the output stream -/
  out : List HlsTok
  deriving DecidableEq, Repr

/-- 842_decomp.cpp 204-212: fetch the next word when fewer than two tokens are buffered. -/
def hlsRefill (s : HlsS) : Except HlsStop HlsS :=
  if !s.last ∧ s.bits < 2 * 69 then
    match s.inp with
    | [] => .error .blocked
    | i :: rest => do
      let w ← swapEndiannessInput i.data
      if 266 < 128 + s.bits then .error .range
      else do
        let buffer ← apSet s.buffer (266 - s.bits - 1) (266 - 128 - s.bits) w
        pure { s with buffer := buffer, bits := (s.bits + 128) % 512, last := i.last, inp := rest }
  else .ok s

/-- 842_decomp.cpp 185-202: the buffer (with the end marker put in when the input is
exhausted), the op code and the number of argument bits. -/
def hlsHead (s : HlsS) : Except HlsStop (List Bool × List Bool × Nat) := do
  let buffer ← if s.last ∧ s.bits < 5 then apSet s.buffer 265 261 apOpEnd else pure s.buffer
  let op ← apGet buffer 265 261
  let len := hlsParamLength (apVal op)
  if s.last ∧ s.bits < 5 + len then do
    let buffer ← apSet buffer 265 261 apOpEnd
    pure (buffer, apOpEnd, 0)
  else pure (buffer, op, len)

/-- 842_decomp.cpp 214-221: write the token, consume its bits. -/
def hlsEmit (s : HlsS) (len : Nat) (last : Bool) : Except HlsStop HlsS :=
  if 266 < 5 + len ∨ 69 < 5 + len then .error .range
  else do
    let tok ← apSet (List.replicate 69 false) 68 (69 - 5 - len) (← apGet s.buffer 265 (266 - 5 - len))
    pure { s with
      buffer := apShl s.buffer (5 + len)
      bits := (s.bits + 512 - (5 + len)) % 512
      out := s.out ++ [{ data := tok, last := last }] }

/-- One iteration, 842_decomp.cpp 183-221; the Boolean is `output.last`. -/
def hlsIter (s : HlsS) : Except HlsStop (HlsS × Bool) := do
  let (buffer, op, len) ← hlsHead s
  let last := op == apOpEnd
  let s ← hlsRefill { s with buffer := buffer }
  let s ← hlsEmit s len last
  pure (s, last)

/-- The loop, 842_decomp.cpp 181-223.  `none`: not finished within the fuel. -/
def hlsLoop : Nat → HlsS → Option (Except HlsStop (List HlsTok))
  | 0, _ => none
  | fuel + 1, s =>
    match hlsIter s with
    | .error e => some (.error e)
    | .ok (s, true) => some (.ok s.out)
    | .ok (s, false) => hlsLoop fuel s

/-- 842_decomp.cpp 168-179: the state before the first iteration. -/
def hlsStart (inp : List HlsIn) : Except HlsStop HlsS :=
  match inp with
  | [] => .error .blocked
  | i :: rest => do
    let w ← swapEndiannessInput i.data
    let buffer ← apSet (List.replicate 266 false) 265 (266 - 128) w
    pure { buffer := buffer, bits := 128, last := i.last, inp := rest, out := [] }

/-- `opcode_tokenizer`, 842_decomp.cpp 166-224: what ends up in the output stream.  Every
iteration consumes at least 5 bits. -/
def hlsTokenizer (inp : List HlsIn) : Option (Except HlsStop (List HlsTok)) :=
  match hlsStart inp with
  | .error e => some (.error e)
  | .ok s => hlsLoop (128 * inp.length + 1) s

end Lib842
