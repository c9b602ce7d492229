import Verif.Spec
/-!
# The format without ring buffers

What `/repo/src/cuda/842-internal.h` 7-16 is meant for (the repository has no description of it): chunks of
1024 bytes, whose pieces of 2, 4 and 8 bytes are numbered with 9, 8 and 7 bits, and no other ops than the templates.
-/

namespace Lib842.Spec

/-- Number of bits of an index argument -/
def directBits (size : Nat) : Nat := if size = 2 then 9 else if size = 4 then 8 else 7

/-- How an argument is written. -/
def Arg.directBits : Arg → List Bool
  | .data bs => bytesBits bs
  | .index size i => bitsOf (Spec.directBits size) i

/-- A template code with its arguments -/
structure DOp where
  code : Nat
  args : List Arg
  deriving DecidableEq, Repr

/-- How an op is written. -/
def DOp.bits (op : DOp) : List Bool := bitsOf 5 op.code ++ op.args.flatMap Arg.directBits

/-- The arguments are those of the template, and indices fit into their bits. -/
def DOp.Valid (op : DOp) : Prop :=
  templates[op.code]? = some (op.args.map Arg.action) ∧ ∀ size i, .index size i ∈ op.args → i < 2 ^ directBits size

/-- Index `i` denotes the bytes `size * i ..` of the output; they belong to a complete 8-byte group. -/
inductive DArgStep : List Byte → Arg → List Byte → Prop
  | data {out bs} : DArgStep out (.data bs) (out ++ bs)
  | index {out size i} (h : size * i + size ≤ 8 * (out.length / 8)) :
      DArgStep out (.index size i) (out ++ (out.drop (size * i)).take size)

/-- Effect of the arguments, one after the other. -/
inductive DArgsRun : List Byte → List Arg → List Byte → Prop
  | nil {out} : DArgsRun out [] out
  | cons {out a out' as out''} : DArgStep out a out' → DArgsRun out' as out'' → DArgsRun out (a :: as) out''

/-- Effect of the ops, one after the other. -/
inductive DRun : List Byte → List DOp → List Byte → Prop
  | nil {out} : DRun out [] out
  | cons {out op out' ops out''} : DArgsRun out op.args out' → DRun out' ops out'' → DRun out (op :: ops) out''

/-- `input` is a stream of this format for `data`: ops, the end marker, arbitrary bits. -/
def DirectDecodes (input data : List Byte) : Prop :=
  ∃ ops rest, (∀ op ∈ ops, DOp.Valid op) ∧ DRun [] ops data ∧
    bytesBits input = ops.flatMap DOp.bits ++ bitsOf 5 0x1e ++ rest

end Lib842.Spec
