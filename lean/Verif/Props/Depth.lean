import Verif.Proofs.Depth
/-!
# Property theorems about the depth of the recursion (C117)
-/

namespace Lib842

namespace Props

/-- C117: `add_bits` (with `__split_add_bits`) never has more than four calls on top of each other: with four it does what
it does with any larger number, and the bit position it leaves behind is one it may be called with again. -/
theorem C117_add_bits (e : Endian) (d : BitVec 64) (n : Nat) (w : Writer) (hb : w.bit < 8) :
    addBitsF e 4 d n w = addBits e d n w ∧ addBits e d n w ≠ .timeout ∧ (∀ f, 4 ≤ f → addBitsF e f d n w = addBitsF e 4 d n w) ∧
      ∀ w', addBits e d n w = .ok () w' → w'.bit < 8 := by
  obtain ⟨h1, h2, h3⟩ := addDepth_4 hb (e := e) (n := n) d
  have h4 : addBitsF e 4 d n w = addBits e d n w := by
    unfold addBits
    by_cases hn : 3 ≤ n
    · exact (h2 (n + 1) (by omega)).symm
    · obtain ⟨-, g2, -⟩ := addDepth_1 (e := e) (n := n) (w := w) (by omega) d
      rw [g2 4 (by decide), g2 (n + 1) (by omega)]
  exact ⟨h4, h4 ▸ h1, h2, fun w' h => h3 () w' (h4 ▸ h)⟩

/-- C117: `next_bits` (with `__split_next_bits`) never has more than four calls on top of each other. -/
theorem C117_next_bits (e : Endian) (n : Nat) (p : Decomp) (hb : p.bit < 8) :
    nextBitsF e 4 n p = nextBits e n p ∧ nextBits e n p ≠ .timeout ∧ (∀ f, 4 ≤ f → nextBitsF e f n p = nextBitsF e 4 n p) ∧
      ∀ v p', nextBits e n p = .ok v p' → p'.bit < 8 := by
  obtain ⟨h1, h2, h3⟩ := nextDepth_4 hb (e := e) (n := n)
  have h4 : nextBitsF e 4 n p = nextBits e n p := by
    unfold nextBits
    by_cases hn : 3 ≤ n
    · exact (h2 (n + 1) (by omega)).symm
    · obtain ⟨-, g2, -⟩ := nextDepth_1 (e := e) (n := n) (p := p) (by omega)
      rw [g2 4 (by decide), g2 (n + 1) (by omega)]
  exact ⟨h4, h4 ▸ h1, h2, fun v p' h => h3 v p' (h4 ▸ h)⟩

/-- C117: four calls do occur: `add_bits` for the data of the first block, behind an op code of 5 bits, in an output buffer of
three bytes, and `next_bits` for the same field of an input that ends after three bytes. -/
theorem C117_four_needed (e : Endian) (d : BitVec 64) (a b c : Byte) :
    addBitsF e 3 d 64 ⟨[a, b, c], 0, 3, 5⟩ = .timeout ∧ nextBitsF e 3 64 ⟨[a, b, c], 0, 5, 3, [], 0, 0⟩ = .timeout :=
  ⟨rfl, rfl⟩

example : (∃ w, addBits .little 0x0102030405060708 64 ⟨[0, 0, 0], 0, 3, 5⟩ = .err .ENOSPC w) ∧
    (∃ w, addBits .big 0x0102030405060708 64 ⟨List.replicate 9 0, 0, 9, 5⟩ = .ok () w ∧ w.bit = 5) ∧
    ∃ p, nextBits .little 64 ⟨[0, 0, 0], 0, 5, 3, [], 0, 0⟩ = .err .EOVERFLOW p :=
  ⟨⟨_, rfl⟩, ⟨_, rfl, rfl⟩, ⟨_, rfl⟩⟩

end Props
end Lib842
