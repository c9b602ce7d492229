import Verif.SpecNew
/-!
# Runs of equal groups

What `sw842_compress` loses on runs of zero groups: a run of equal groups is encoded with repeat ops (11 bits, up to 64
groups each) after the first group, but a zero group on its own takes 5 bits, so a repeat op for one or two zero groups is
longer than the zeros ops it replaces.
-/

namespace Lib842.Spec

/-- Group `i`: bytes `8 i` to `8 i + 7` -/
def group (x : List Byte) (i : Nat) : List Byte := (x.drop (8 * i)).take 8

/-- Number of groups directly before group `i` that are equal to it -/
def reps (x : List Byte) : Nat → Nat
  | 0 => 0
  | i + 1 => if group x (i + 1) = group x i then reps x i + 1 else 0

/-- Bits lost on a run of zero groups with `r` repetitions: if the last repeat op stands for one group, 11 bits
instead of 5; if it stands for two, 11 bits instead of 10. -/
def runWaste (r : Nat) : Nat := if r % 64 = 1 then 6 else if r % 64 = 2 then 1 else 0

/-- Bits lost on all runs of zero groups (a run is counted at its last group) -/
def zeroWaste (x : List Byte) : Nat :=
  ((List.range (x.length / 8)).map fun i =>
    if zeroGroup x i && !zeroGroup x (i + 1) then runWaste (reps x i) else 0).sum

end Lib842.Spec
