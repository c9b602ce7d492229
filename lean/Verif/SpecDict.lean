import Verif.Spec
/-!
# Which references the dictionary of the optimised compressor holds

The optimised compressor finds earlier values through hash tables that remember one position per
hash.
-/

namespace Lib842.Spec

/-- The number with the given big-endian bytes -/
def beNumber (v : List Byte) : Nat := v.foldl (fun a b => 256 * a + b.toNat) 0

/-- The multiplicative hash of a value of 2, 4 or 8 bytes: 11 bits for 4 bytes, otherwise 10 -/
def dictHash (v : List Byte) : Nat :=
  11400714785074694791 * beNumber v % 2 ^ 64 / 2 ^ (64 - if v.length = 4 then 11 else 10)

/-- None of the 8-byte groups of `out` from the one with offset `o` on is zero. -/
def NoZeroGroup (out : List Byte) (o : Nat) : Prop :=
  ∀ g, o / 8 ≤ g → 8 * g + 8 ≤ out.length → (out.drop (8 * g)).take 8 ≠ List.replicate 8 0

/-- `v` occurs in `out`, in the part a reference can reach; no different value of the same size
with the same hash follows; and no zero group. -/
def Retrievable (out v : List Byte) : Prop :=
  ∃ o, o % v.length = 0 ∧ o + v.length ≤ out.length ∧ out.length ≤ o + ringSize v.length ∧
    (out.drop o).take v.length = v ∧
    (∀ o', o < o' → o' % v.length = 0 → o' + v.length ≤ out.length →
      dictHash ((out.drop o').take v.length) = dictHash v → (out.drop o').take v.length = v) ∧
    NoZeroGroup out o

/-- The values that arguments take from the ring buffers, if they produce the bytes `b` -/
def referenced : List Arg → List Byte → List (List Byte)
  | [], _ => []
  | .data d :: as, b => referenced as (b.drop d.length)
  | .index n _ :: as, b => b.take n :: referenced as (b.drop n)

/-- No two different values of 2, 4 or 8 bytes at multiples of their size in `x` have the same
hash. -/
def NoCollisions (x : List Byte) : Prop :=
  ∀ n, n = 2 ∨ n = 4 ∨ n = 8 → ∀ o o', o % n = 0 → o' % n = 0 → o + n ≤ x.length → o' + n ≤ x.length →
    dictHash ((x.drop o).take n) = dictHash ((x.drop o').take n) → (x.drop o).take n = (x.drop o').take n

end Lib842.Spec
