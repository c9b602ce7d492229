import Verif.Proofs.Size
import Verif.Proofs.SwCall
/-!
# Property theorems about the size of the streams of `sw842_compress` (C120)

`sizeBits` (SpecSize.lean) looks only at the data: which groups repeat the one before, which are zero, and which of their parts are in the ring
buffers. It knows nothing about hash tables, templates or the order in which they are tried.
-/

namespace Lib842

theorem Size.map_inj {p : Byte → Byte} (hp : ∀ a b, p a = p b → a = b) : ∀ {a b : List Byte}, a.map p = b.map p → a = b
  | [], [], _ => rfl
  | [], _ :: _, h => by cases h
  | _ :: _, [], h => by cases h
  | a :: as, b :: bs, h => by
    rw [List.map_cons, List.map_cons, List.cons.injEq] at h
    rw [hp _ _ h.1, Size.map_inj hp h.2]

namespace Props
open Spec Size

/-- C120: `sw842_compress` succeeds exactly if the words needed for `sizeBits x` bits fit in the buffer (and their number of bytes in the 32-bit
count of the code), and then they are what it reports, whatever the byte order, the address of the data and the uninitialised workspace. -/
theorem C120_sw_size (e : Endian) (addr : Nat) (j : CompJunk) (x buf : List Byte) :
    ∃ b, b.length = buf.length ∧
      if 8 * ((sizeBits x + 63) / 64) ≤ buf.length ∧ 8 * ((sizeBits x + 63) / 64) ≤ 0xffffffff then
        sw842Compress e addr j x buf = .ret none (8 * ((sizeBits x + 63) / 64)) b
      else sw842Compress e addr j x buf = .ret (some .ENOSPC) 0 b := by
  obtain ⟨b, hb, h⟩ := sw842Compress_eq e addr j x buf
  have hs : paddedSize (streamBits x).length = 8 * ((sizeBits x + 63) / 64) := by rw [streamBits_length]; rfl
  rw [hs] at h
  refine ⟨b, hb, ?_⟩
  split
  · next hc => rw [if_pos hc] at h; exact h.1
  · next hc => rw [if_neg hc] at h; exact h

/-- C120: the size depends on which bytes are equal, not on which bytes they are: exchanging the values of the bytes (0 stays 0) changes neither
the result nor the size. -/
theorem C120_relabel (p : Byte → Byte) (hp : ∀ a b, p a = p b → a = b) (h0 : p 0#8 = 0#8) (e e' : Endian) (addr addr' : Nat) (j j' : CompJunk)
    (x buf buf' : List Byte) (hl : buf.length = buf'.length) :
    ∃ err n b b', sw842Compress e addr j x buf = .ret err n b ∧ sw842Compress e' addr' j' (x.map p) buf' = .ret err n b' := by
  have heq : ∀ a c n : Nat, (((x.map p).drop a).take n = ((x.map p).drop c).take n) ↔ ((x.drop a).take n = (x.drop c).take n) := by
    intro a c n
    rw [← List.map_drop, ← List.map_drop, ← List.map_take, ← List.map_take]
    exact ⟨map_inj hp, fun h => by rw [h]⟩
  have hseen : ∀ pos n o, seen (x.map p) pos n o = seen x pos n o := by
    intro pos n o
    unfold seen
    congr 1
    funext k
    simp only [heq]
  have hzero : ∀ i, zeroGroup (x.map p) i = zeroGroup x i := by
    intro i
    unfold zeroGroup
    have : List.replicate 8 0#8 = (List.replicate 8 0#8).map p := by rw [List.map_replicate, h0]
    rw [← List.map_drop, ← List.map_take]
    congr 1
    rw [eq_iff_iff]
    exact ⟨fun h => map_inj hp (h.trans this), fun h => by rw [h, ← this]⟩
  have hreps : ∀ i, reps (x.map p) i = reps x i := by
    intro i
    induction i with
    | zero => rfl
    | succ i ih =>
      rw [reps, reps, ih]
      unfold group
      simp only [heq]
  have hsize : sizeBits (x.map p) = sizeBits x := by
    unfold sizeBits groupBits halfBits wordBits
    simp only [hseen, hzero, hreps, List.length_map]
  obtain ⟨b, -, h⟩ := C120_sw_size e addr j x buf
  obtain ⟨b', -, h'⟩ := C120_sw_size e' addr' j' (x.map p) buf'
  rw [hsize, ← hl] at h'
  by_cases hc : 8 * ((sizeBits x + 63) / 64) ≤ buf.length ∧ 8 * ((sizeBits x + 63) / 64) ≤ 0xffffffff
  · rw [if_pos hc] at h h'
    exact ⟨_, _, b, b', h, h'⟩
  · rw [if_neg hc] at h h'
    exact ⟨_, _, b, b', h, h'⟩

/-- Twice 69 bits, 13 bits for the third group (the first one again), 5 + 9 + 16 + 8 for the fourth, a zero group, two repetitions of it, two bytes:
266 bits with the end, 40 bytes. -/
example : sizeBits ([1, 2, 3, 4, 5, 6, 7, 8] ++ [9, 10, 11, 12, 13, 14, 15, 16] ++ [1, 2, 3, 4, 5, 6, 7, 8] ++ [5, 6, 7, 8, 99, 98, 3, 4] ++
    List.replicate 24 0#8 ++ [1, 2]) = 69 + 69 + 13 + 38 + 5 + 11 + 24 + 37 := by decide +kernel

/-- A substitution of the bytes as in `C120_relabel` that is not the identity -/
example : ∃ p : Byte → Byte, (∀ a b, p a = p b → a = b) ∧ p 0#8 = 0#8 ∧ p 1#8 = 2#8 :=
  ⟨fun a => if a = 1#8 then 2#8 else if a = 2#8 then 1#8 else a, by decide +kernel, by decide, by decide⟩

end Lib842.Props
