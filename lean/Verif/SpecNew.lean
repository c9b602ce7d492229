import Verif.Spec
/-!
# New words of a byte string

The smallest unit an 842 stream can refer back to is an aligned 16-bit word of a group that is
complete.
-/

namespace Lib842.Spec

/-- Aligned 16-bit word `k`. -/
def wordOf (x : List Byte) (k : Nat) : List Byte := (x.drop (2 * k)).take 2

/-- Group `g` consists of zeros. -/
def zeroGroup (x : List Byte) (g : Nat) : Bool := decide ((x.drop (8 * g)).take 8 = List.replicate 8 0#8)

/-- Word `k` does not occur in the 2048 bytes before its group (the longest distance a reference can
bridge), and its group is not zero. -/
def newWord (x : List Byte) (k : Nat) : Bool :=
  !zeroGroup x (k / 4) &&
    (List.range (4 * (k / 4))).all fun j => decide (4 * (k / 4) ≤ j + 1024 → wordOf x j ≠ wordOf x k)

/-- Number of new words -/
def newWords (x : List Byte) : Nat := (List.range (x.length / 2)).countP (newWord x)

/-- Number of groups with a new word -/
def newGroups (x : List Byte) : Nat :=
  (List.range (x.length / 8)).countP fun g => (List.range 4).any fun i => newWord x (4 * g + i)

/-- Every word is new. -/
def AllNew (x : List Byte) : Prop := ∀ k < x.length / 2, newWord x k = true

/-- The 16-bit numbers 0, 1, 2, … (big-endian, wrapping): `g` groups -/
def counting (g : Nat) : List Byte := (List.range (4 * g)).flatMap fun k => [BitVec.ofNat 8 (k / 256), BitVec.ofNat 8 k]

end Lib842.Spec
