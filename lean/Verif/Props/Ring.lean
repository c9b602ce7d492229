import Verif.Proofs.OptDecomp
/-!
# Property theorems for ring-buffer references (C22)
-/

namespace Lib842.Props
open Spec

/-- The format itself: an index denotes at most one offset, and denotes one exactly if its
ring slot has been written. -/
theorem C22_ring_unique (len size i : Nat) (hs : size = 2 ∨ size = 4 ∨ size = 8)
    (hi : i < 2 ^ indexBits size) :
    (∀ o o', RingRef len size i o → RingRef len size i o' → o = o') ∧
    ((∃ o, RingRef len size i o) ↔ i * size + size ≤ 8 * (len / 8)) := by
  constructor
  · intro o o' h h'
    rw [← (indexOffset_complete hs hi h).1, ← (indexOffset_complete hs hi h').1]
  · constructor
    · rintro ⟨o, h1, h2, h3⟩
      have := Nat.mod_le o (ringSize size)
      omega
    · intro h
      have hrs : ringSize size = size * 2 ^ indexBits size := rfl
      refine ⟨_, indexOffset_sound hs hi ?_⟩
      unfold indexOffset roundDown
      rcases hs with rfl | rfl | rfl <;> simp [indexBits, ringSize] at hi hrs h ⊢ <;> split <;>
        (try split) <;> omega

/-- C22 for `sw842_decompress` (`__do_index`): the offset computed is accepted
(`offset + size ≤ total`) if and only if the slot has been written, and is then the offset
the index denotes. -/
theorem C22_sw_index (len size i : Nat) (hs : size = 2 ∨ size = 4 ∨ size = 8)
    (hi : i < 2 ^ indexBits size) :
    (indexOffset i size (ringSize size) (roundDown len 8) + size ≤ roundDown len 8 ↔
      ∃ o, RingRef len size i o) ∧
    (∀ o, RingRef len size i o → indexOffset i size (ringSize size) (roundDown len 8) = o) := by
  refine ⟨⟨fun h => ⟨_, indexOffset_sound hs hi h⟩, ?_⟩, fun o h => (indexOffset_complete hs hi h).1⟩
  rintro ⟨o, h⟩
  have := indexOffset_complete hs hi h
  rw [this.1]; exact this.2

/-- C22 for `optsw842_decompress` (`do_index`): an index whose slot has not been written sets
the error code, any other copies the bytes at the offset it denotes. -/
theorem C22_opt_index (p : ODecomp) (size i : Nat) (hs : size = 2 ∨ size = 4 ∨ size = 8)
    (hi : i < 2 ^ indexBits size) :
    ((¬ ∃ o, RingRef p.out size i o) →
      odoIndex size i (ringSize size) p = .ok () (p.setError .EINVAL)) ∧
    (∀ o bs, RingRef p.out size i o → readBytes p.buf o size = some bs →
      odoIndex size i (ringSize size) p = oemit bs p) := by
  obtain ⟨h1, h2⟩ := C22_sw_index p.out size i hs hi
  unfold odoIndex
  constructor
  · intro hn
    rw [M.get_bind_apply]
    rw [if_pos (not_le.1 (fun h => hn (h1.1 h)))]
    rfl
  · intro o bs hr hb
    rw [M.get_bind_apply]
    have := h1.2 ⟨o, hr⟩
    rw [if_neg (by omega), h2 o hr, M.access_bind_some (g := fun p : ODecomp => readBytes p.buf o size) hb]

/-- After 1003 bytes (1000 of them in complete groups), index 10 of the 512-byte ring is at
offset 532. -/
example : RingRef 1003 2 10 532 ∧ indexOffset 10 2 (ringSize 2) (roundDown 1003 8) = 532 := by
  constructor
  · refine ⟨by decide, by decide, by decide⟩
  · decide

end Lib842.Props
