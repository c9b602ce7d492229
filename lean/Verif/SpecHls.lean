import Verif.Spec
/-!
# Specification for the HLS tokenizer: the bus and the tokens

Independent of the code model.
-/

namespace Lib842.Spec

/-- The 128-bit bus word for 16 bytes of the stream, most significant bit first: byte `k` of the
stream travels on lanes `8k+7 .. 8k`. -/
def busBits (bytes : List Byte) : List Bool := bytesBits bytes.reverse

/-- The transfers for a list of 16-byte groups: `last` is set on the last one. -/
def transfers : List (List Byte) → List (List Bool × Bool)
  | [] => []
  | w :: ws => (busBits w, ws.isEmpty) :: transfers ws

/-- A 69-bit token: the bits of an op, left aligned. -/
def token (bits : List Bool) : List Bool := bits ++ List.replicate (69 - bits.length) false

/-- What the tokenizer may cut off as one piece: an op of the hardware format, or one of the
three 5-bit codes that do not occur in it. -/
def Piece (g : List Bool) : Prop :=
  (∃ op : Op, op.Valid ∧ op.isShort = false ∧ g = op.bits) ∨
  ∃ c, (c = 0x1a ∨ c = 0x1d ∨ c = 0x1f) ∧ g = bitsOf 5 c

end Lib842.Spec
