import Verif.Spec
/-!
# Streams that ask for more room than there is
-/

namespace Lib842.Spec

/-- `input`, read op by op in the hardware format, first comes to valid ops for at most `k` bytes of data, and then to an op for which
there is no room in a buffer of `k` bytes: one of the ops for 8 bytes (the templates and the op for zeros; only the 5 bits that name it
need to be there), or a repetition of existing data. -/
def Overflows (input : List Byte) (k : Nat) : Prop :=
  ∃ ops d rest, Expands ops d ∧ (∀ op ∈ ops, op.isShort = false) ∧ d.length ≤ k ∧
    ((∃ o, (o < 26 ∨ o = 0x1c) ∧ k < d.length + 8 ∧ bytesBits input = ops.flatMap Op.bits ++ (bitsOf 5 o ++ rest)) ∨
     (∃ r, r < 64 ∧ d ≠ [] ∧ k < d.length + 8 * (r + 1) ∧
        bytesBits input = ops.flatMap Op.bits ++ (bitsOf 5 0x1b ++ (bitsOf 6 r ++ rest))))

/-- `input` begins with valid ops of the hardware format for more than `k` bytes of data. -/
def LongerThan (input : List Byte) (k : Nat) : Prop :=
  ∃ ops d rest, Expands ops d ∧ (∀ op ∈ ops, op.isShort = false) ∧ k < d.length ∧ bytesBits input = ops.flatMap Op.bits ++ rest

/-- After `out`, the action `act` of a template has no room in a buffer of `k` bytes: data (whether it is there or not), or existing
data that the next bits refer to. -/
inductive ArgFull (k : Nat) (out : List Byte) : Action → List Bool → Prop
  | data {n : Nat} {rest : List Bool} (h : k < out.length + n) : ArgFull k out (.D n) rest
  | index {n i o : Nat} {rest : List Bool} (hi : i < 2 ^ indexBits n) (hr : RingRef out.length n i o) (h : k < out.length + n) :
      ArgFull k out (.I n) (bitsOf (indexBits n) i ++ rest)

/-- After `d`, the bits begin with an op of the software format for which there is no room in a buffer of `k` bytes.  In a template, the
actions `args` still have room. -/
inductive OpFull (k : Nat) (d : List Byte) : List Bool → Prop
  | template {code : Nat} {args : List Arg} {act : Action} {acts : List Action} {d' : List Byte} {rest : List Bool}
      (ht : templates[code]? = some (args.map Arg.action ++ act :: acts)) (hv : ∀ a ∈ args, a.Valid) (hrun : ArgsRun d args d')
      (hfit : d'.length ≤ k) (hfull : ArgFull k d' act rest) : OpFull k d (bitsOf 5 code ++ (args.flatMap Arg.bits ++ rest))
  | rep {r : Nat} {rest : List Bool} (hr : r < 64) (hd : d ≠ []) (h : k < d.length + 8 * (r + 1)) :
      OpFull k d (bitsOf 5 0x1b ++ (bitsOf 6 r ++ rest))
  | zeros {rest : List Bool} (h : k < d.length + 8) : OpFull k d (bitsOf 5 0x1c ++ rest)
  | short {m : Nat} {rest : List Bool} (h1 : 1 ≤ m) (h7 : m ≤ 7) (h : k < d.length + m) :
      OpFull k d (bitsOf 5 0x1d ++ (bitsOf 3 m ++ rest))

/-- `input`, read op by op in the software format, first comes to valid ops for at most `k` bytes of data, and then to an op for which
there is no room in a buffer of `k` bytes. -/
def SwOverflows (input : List Byte) (k : Nat) : Prop :=
  ∃ ops d R, Expands ops d ∧ d.length ≤ k ∧ bytesBits input = ops.flatMap Op.bits ++ R ∧ OpFull k d R

end Lib842.Spec
