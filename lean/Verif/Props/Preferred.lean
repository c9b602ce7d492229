import Verif.Props.NoRoom
import Verif.Props.Align
import Verif.Model.Impl
/-!
# What the preferred alignment is good for (C93)
-/

namespace Lib842.Props
open Spec

/-- C93: the alignments of the software implementations can be passed to `aligned_alloc`, which wants a power of two. -/
theorem C93_powers : (∃ k, swAlign.required = 2 ^ k) ∧ (∃ k, swAlign.preferred = 2 ^ k) ∧ (∃ k, optAlign.required = 2 ^ k) ∧
    (∃ k, optAlign.preferred = 2 ^ k) ∧ (∃ k, aixAlign.required = 2 ^ k) ∧ ∃ k, aixAlign.preferred = 2 ^ k :=
  ⟨⟨0, rfl⟩, ⟨0, rfl⟩, ⟨0, rfl⟩, ⟨3, rfl⟩, ⟨12, rfl⟩, ⟨7, rfl⟩⟩

/-- C93: `optsw842_decompress` treats two buffers as it treats those at address 0 (that is, it does not leave the work to the serial version) exactly if
they have the preferred alignment. -/
theorem C93_opt_preferred (a a' : Nat) : (optAlign.preferred ∣ a ∧ optAlign.preferred ∣ a') ↔
    ∀ e inp buf, view (optsw842Decompress e a a' inp buf) = view (optsw842Decompress e 0 0 inp buf) := by
  constructor
  · rintro ⟨h1, h2⟩ e inp buf
    have h1 : a % 8 = 0 := Nat.mod_eq_zero_of_dvd h1
    have h2 : a' % 8 = 0 := Nat.mod_eq_zero_of_dvd h2
    obtain ⟨d, b, hx, ht, -, hd, hno⟩ | ⟨b, hx, ho⟩ | ⟨b, hx, hno, ho⟩ := C73_opt_verdict e a a' ⟨h1, h2⟩ inp buf <;>
    obtain ⟨d', b', hx', ht', -, hd', hno'⟩ | ⟨b', hx', ho'⟩ | ⟨b', hx', hno', ho'⟩ := C73_opt_verdict e 0 0 ⟨rfl, rfl⟩ inp buf
    · obtain rfl := decodes_unique hd.decodes hd'.decodes
      rw [hx, hx']
      simp only [view, ht, ht']
    · exact absurd ho' hno
    · exact absurd ⟨_, hd⟩ hno'
    · exact absurd ho hno'
    · rw [hx, hx']; simp [view]
    · exact absurd ho ho'
    · exact absurd ⟨_, hd'⟩ hno
    · exact absurd ho' ho
    · rw [hx, hx']; simp [view]
  · intro h
    by_contra hc
    have hal : a % 8 ≠ 0 ∨ a' % 8 ≠ 0 := by
      by_contra hcc
      exact hc ⟨Nat.dvd_of_mod_eq_zero (n := a) (m := 8) (by omega), Nat.dvd_of_mod_eq_zero (n := a') (m := 8) (by omega)⟩
    have := h .little exOut (List.replicate 19 0xaa)
    rw [optDecompress_sw _ _ hal] at this
    have h0 : view (optsw842Decompress .little 0 0 exOut (List.replicate 19 0xaa)) = some (some .ENOSPC, 0, []) ∨
        view (optsw842Decompress .little 0 0 exOut (List.replicate 19 0xaa)) = some (some .EINVAL, 0, []) := by decide +kernel
    have hsw : view (sw842Decompress .little 0 exOut (List.replicate 19 0xaa)) = some (none, 19, exIn) := by decide +kernel
    have hd : Decodes exOut exIn := by
      unfold view at hsw
      split at hsw
      · rename_i rc n b hx
        simp only [Option.some.injEq, Prod.mk.injEq] at hsw
        obtain ⟨rfl, rfl, h3⟩ := hsw
        have := (sw842Decompress_ok hx).1
        rwa [h3] at this
      · cases hsw
    obtain ⟨b', hb, ht, h'⟩ := sw842Decompress_decodes .little a' exOut (List.replicate 19 0xaa) hd
    rw [if_neg (by decide), if_neg (by decide)] at h'
    rw [h'] at this
    rcases h0 with h0 | h0 <;> rw [h0] at this <;> simp [view] at this

/-- Buffers at 8 and 16 are treated like those at 0, a buffer at 4 is not. -/
example : optAlign.preferred ∣ 8 ∧ optAlign.preferred ∣ 16 ∧ ¬ optAlign.preferred ∣ 4 := by decide

/-- C93: the tables of functions carry the alignments of their functions: the decompressor of the table of the optimised implementation treats two
buffers as it treats those at address 0 exactly if they have the alignment that the table prefers; all addresses have the alignments of the table of
the serial implementation, and that required by the table of the optimised one; buffers allocated as the table for AIX recommends need not have the
alignment that it requires. -/
theorem C93_tables (oj : OptJunk) (j : CompJunk) (acc : Accel) :
    (∀ a a', (∀ e, (optImpl e oj j).align.preferred ∣ a ∧ (optImpl e oj j).align.preferred ∣ a') ↔
      ∀ e inp buf, view ((optImpl e oj j).decompress a a' 0 0 inp buf) = view ((optImpl e oj j).decompress 0 0 0 0 inp buf)) ∧
    (∀ e a, (swImpl e j).align.required ∣ a ∧ (swImpl e j).align.preferred ∣ a ∧ (optImpl e oj j).align.required ∣ a) ∧
    ∃ a, (aixImpl acc).align.preferred ∣ a ∧ ¬ (aixImpl acc).align.required ∣ a := by
  refine ⟨fun a a' => ?_, fun e a => ⟨Nat.one_dvd a, Nat.one_dvd a, Nat.one_dvd a⟩, 128, show aixAlign.preferred ∣ 128 by decide, show ¬ aixAlign.required ∣ 128 by decide⟩
  have h := C93_opt_preferred a a'
  constructor
  · intro hd
    exact h.1 (hd .little)
  · intro hv _
    exact h.2 hv

end Lib842.Props
