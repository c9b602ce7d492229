import Verif.Proofs.OclRoom
import Verif.Props.Ocl
/-!
# C46: which chunks the OpenCL kernel restores in place
-/

namespace Lib842.Props
open Lib842 Spec

/-- C46, partial: a chunk that the host packs is restored in place if its stream has at most 616 bytes (or is not used
because it saves too little); raw chunks must not begin with the marker (`C45_maybe_false`). -/
theorem C46_small_partial (e : Endian) (ain aout : Nat) (j : OptJunk) (jsw : CompJunk) (x old tmp c : List Byte)
    (h8 : x.length % 8 = 0) (h24 : 24 ≤ x.length) (h64 : x.length < 2 ^ 64) (hold : old.length = x.length)
    (htmp : tmp.length = 2 * x.length) (hal : (ain % 8 = 0 ∧ aout % 8 = 0) ∨ 2 * x.length ≤ 0xffffffff)
    (hc : packChunk e ain aout j jsw x old tmp = some c) (hm : x.take 16 ≠ marker)
    (hn : ∀ n t, optsw842Compress e ain aout j jsw x tmp = .ret none n t → n ≤ 616 ∨ x.length < n + 24)
    (more : List Byte) (ilen olen : Option Nat) (ho : ∀ o, olen = some o → x.length ≤ o) :
    oclItem e .inplace x.length [] (c ++ more) ilen olen = .ret none x.length (x ++ more) := by
  obtain ⟨n, t, c', h1, h2, h3⟩ := packChunk_cases e ain aout j jsw h8 h24 hold (le_of_eq htmp.symm) hal
  obtain rfl : c = c' := by rw [hc] at h2; exact Option.some.inj h2
  rcases h3 with ⟨-, rfl⟩ | ⟨h4, h5, h6, h7, h9, h10⟩
  · have := C46_inplace_partial e c (c ++ more) ilen olen h8 (by omega) h64 (by rw [List.length_append]; omega) ho
      (.inl ⟨List.take_left, hm⟩)
    rwa [List.drop_left] at this
  · have hcl : c.length = x.length := h7.1
    have htk : (c ++ more).take x.length = c := by rw [← hcl]; exact List.take_left
    have hdr : (c ++ more).drop x.length = more := by rw [← hcl]; exact List.drop_left
    obtain ⟨-, -, k1, k2, -, k3, k4⟩ := optsw842Compress_ok h1
    obtain ⟨ops, o1, o2, o3⟩ := optBits_ops (x := x) ain aout h8
    have hlen : (optBits ain aout x).length = (ops.flatMap Op.bits).length + 37 := by
      rw [o3, List.length_append]; simp [trailer]
    have q1 : ((c ++ more).drop 16).take 8 = (if e.isLittle then sizeBytes n else (sizeBytes n).reverse) := by
      rw [← h9, List.drop_append_of_le_length (by omega), List.take_append_of_le_length (by rw [List.length_drop]; omega)]
    have q2 : bytesBits (((c ++ more).drop (x.length - n)).take n) = ops.flatMap Op.bits ++ (trailer x ++
        List.replicate (8 * n - (optBits ain aout x).length) false) := by
      rw [List.drop_append_of_le_length (by omega), List.take_append_of_le_length (by rw [List.length_drop]; omega), h10,
        List.take_take, Nat.min_self, k4, ← List.append_assoc, ← o3]
    have := C46_inplace_partial e x (c ++ more) ilen olen h8 (by omega) h64 (by rw [List.length_append]; omega) ho
      (.inr ⟨by rw [htk]; exact h7, n, ops, _, h5, h6, by omega, q1, o1, o2, q2,
        room_616 o1 o2 (by rw [k1, hlen]; rfl) ((hn n t h1).resolve_right (by omega)) (by omega)⟩)
    rwa [hdr] at this

/-- In particular every chunk of at most 640 bytes is restored in place. -/
theorem C46_640_partial (e : Endian) (ain aout : Nat) (j : OptJunk) (jsw : CompJunk) (x old tmp c : List Byte)
    (h8 : x.length % 8 = 0) (h24 : 24 ≤ x.length) (h640 : x.length ≤ 640) (hold : old.length = x.length)
    (htmp : tmp.length = 2 * x.length) (hc : packChunk e ain aout j jsw x old tmp = some c) (hm : x.take 16 ≠ marker)
    (more : List Byte) (ilen olen : Option Nat) (ho : ∀ o, olen = some o → x.length ≤ o) :
    oclItem e .inplace x.length [] (c ++ more) ilen olen = .ret none x.length (x ++ more) :=
  C46_small_partial e ain aout j jsw x old tmp c h8 h24 (by omega) hold htmp (.inr (by omega)) hc hm
    (fun n _ _ => by omega) more ilen olen ho

/-- The hypotheses are met: 64 zero bytes in a chunk followed by two more bytes. -/
example : ∃ c, packChunk .little 0 0 ojunk0 junk0 (List.replicate 64 0) (List.replicate 64 0) (List.replicate 128 0) = some c ∧
    c ≠ List.replicate 64 0 ∧
    oclItem .little .inplace 64 [] (c ++ [1, 2]) none none = .ret none 64 (List.replicate 64 0 ++ [1, 2]) := by
  have h : packChunk .little 0 0 ojunk0 junk0 (List.replicate 64 0) (List.replicate 64 0) (List.replicate 128 0) =
      some (zeroChunk.take 64) := by decide +kernel
  exact ⟨_, h, by decide, C46_640_partial .little 0 0 ojunk0 junk0 (List.replicate 64 0) _ _ _ (by decide) (by decide) (by decide)
    rfl rfl h (by decide) [1, 2] none none (by simp)⟩

/-- 84 zero bytes, four others and 280 different 16-bit words. -/
def lateData : List Byte :=
  List.replicate 84 0#8 ++ [1, 2, 3, 4] ++
    (List.range 280).flatMap fun i => [BitVec.ofNat 8 (16 + i / 16), BitVec.ofNat 8 (i % 16 + 16 * (i / 32))]

/-- What the kernel makes of the chunk in place. -/
def lateWrong : List Byte := lateData.take 132 ++ [16, 0, 0, 0, 2, 4, 6] ++ lateData.drop 139

theorem late_eval : (packChunk .little 0 0 ojunk0 junk0 lateData (List.replicate 648 0) (List.replicate 1296 0)).map
    (fun c => (view (oclItem .little .inplace 648 [] c none none), decide (c = lateData))) =
      some (some (none, 648, lateWrong), false) := by
  decide +kernel

/-- The bounds cannot be raised, and the failure may go unnoticed: a chunk of 648 bytes, packed by the host (its stream has 624 bytes),
that the kernel restores into another buffer, but turns into something else in place while reporting success. -/
theorem C46_silent_false :
    ∃ x c b : List Byte, x.length = 648 ∧
      packChunk .little 0 0 ojunk0 junk0 x (List.replicate 648 0) (List.replicate 1296 0) = some c ∧
      (∃ t, optsw842Compress .little 0 0 ojunk0 junk0 x (List.replicate 1296 0) = .ret none 624 t) ∧
      oclItem .little .maybe 648 c (List.replicate 648 0) none none = .ret none 648 x ∧
      oclItem .little .inplace 648 [] c none none = .ret none 648 b ∧ b ≠ x := by
  have hl : lateData.length = 648 := by decide +kernel
  obtain ⟨c, h1, h2, h3⟩ := C45_maybe_partial .little 0 0 ojunk0 junk0 lateData (List.replicate 648 0) (List.replicate 1296 0)
    (by rw [hl]) (by rw [hl]; omega) (by rw [hl]; decide) (by rw [hl, List.length_replicate])
    (by rw [hl, List.length_replicate]) (.inl ⟨rfl, rfl⟩)
  have he := late_eval
  rw [h1, Option.map_some, Option.some.injEq, Prod.mk.injEq] at he
  have hne : c ≠ lateData := of_decide_eq_false he.2
  have h4 := h3 (.inl hne) [] (List.replicate 648 0) none none (by rw [hl, List.length_replicate]) (by simp)
  rw [hl, List.append_nil, List.drop_of_length_le (by rw [List.length_replicate]), List.append_nil] at h4
  have hs : (view (optsw842Compress .little 0 0 ojunk0 junk0 lateData (List.replicate 1296 0))).map (fun v => (v.1, v.2.1)) =
      some (none, 624) := by decide +kernel
  have hs' : ∃ t, optsw842Compress .little 0 0 ojunk0 junk0 lateData (List.replicate 1296 0) = .ret none 624 t := by
    cases hc : optsw842Compress .little 0 0 ojunk0 junk0 lateData (List.replicate 1296 0) with
    | ret rc n t =>
      rw [hc] at hs
      simp only [view, Option.map_some, Option.some.injEq, Prod.mk.injEq] at hs
      obtain ⟨rfl, rfl⟩ := hs
      exact ⟨t, rfl⟩
    | ub => rw [hc] at hs; exact absurd hs (by simp [view])
    | timeout => rw [hc] at hs; exact absurd hs (by simp [view])
  cases hc : oclItem .little .inplace 648 [] c none none with
  | ret rc n b =>
    rw [hc] at he
    obtain ⟨he, -⟩ := he
    simp only [view, Option.some.injEq, Prod.mk.injEq] at he
    obtain ⟨rfl, rfl, he⟩ := he
    refine ⟨lateData, c, b, hl, h1, hs', h4, hc, ?_⟩
    rintro rfl
    exact absurd he (by decide +kernel)
  | ub => rw [hc] at he; exact absurd he.1 (by simp [view])
  | timeout => rw [hc] at he; exact absurd he.1 (by simp [view])

end Lib842.Props
