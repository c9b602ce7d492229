import Verif.Proofs.Causal
import Verif.Props.Sw
import Verif.Props.Opt
/-!
# C102: compressing more data

What the compressors write for the beginning of the data does not depend on what follows, and more data never needs less room.
-/

namespace Lib842.Props
open Spec

theorem pad_le {a b : Nat} (h : a ≤ b) : paddedSize a ≤ paddedSize b := by
  unfold paddedSize
  omega

/-- C102, serial: the output for `p ++ x` begins with the output for `p` but for its last 14 bytes. -/
theorem C102_sw_prefix (e e' : Endian) (addr addr' : Nat) (j j' : CompJunk) (p x buf buf' : List Byte) (n n' : Nat) (b b' : List Byte)
    (hp : p.length % 8 = 0) (h : sw842Compress e addr j p buf = .ret none n b)
    (h' : sw842Compress e' addr' j' (p ++ x) buf' = .ret none n' b') :
    b'.take (n - 14) = b.take (n - 14) := by
  obtain ⟨e1, e2, _, e4, e5⟩ := sw842Compress_ok h
  obtain ⟨f1, f2, _, f4, f5⟩ := sw842Compress_ok h'
  obtain ⟨A, B, C, h1, h2, h3, h4⟩ := streamBits_prefix p x
  rw [if_pos hp] at h3 h4
  rw [h1, List.append_assoc] at e5
  rw [h2, List.append_assoc] at f5
  rw [h1, List.length_append] at e1
  rw [h2, List.length_append] at f1
  have hn : n ≤ n' := by rw [e1, f1]; exact pad_le (by omega)
  have := take_of_bits (k := n - 14) f5 e5 (by unfold paddedSize at e1; omega)
  rwa [List.take_take, List.take_take, Nat.min_eq_left (by omega), Nat.min_eq_left (by omega)] at this

/-- C102, serial: the same for a `p` of any length, with 22 bytes. -/
theorem C102_sw_prefix_any (e e' : Endian) (addr addr' : Nat) (j j' : CompJunk) (p x buf buf' : List Byte) (n n' : Nat) (b b' : List Byte)
    (h : sw842Compress e addr j p buf = .ret none n b) (h' : sw842Compress e' addr' j' (p ++ x) buf' = .ret none n' b') :
    b'.take (n - 22) = b.take (n - 22) := by
  obtain ⟨e1, e2, _, e4, e5⟩ := sw842Compress_ok h
  obtain ⟨f1, f2, _, f4, f5⟩ := sw842Compress_ok h'
  obtain ⟨A, B, C, h1, h2, h3, h4⟩ := streamBits_prefix p x
  have h3' : B.length ≤ 112 := by split at h3 <;> omega
  have h4' : B.length ≤ C.length + 64 := by split at h4 <;> omega
  rw [h1, List.append_assoc] at e5
  rw [h2, List.append_assoc] at f5
  rw [h1, List.length_append] at e1
  rw [h2, List.length_append] at f1
  have hn : n ≤ n' + 8 := by
    rw [e1, f1]
    unfold paddedSize
    omega
  have := take_of_bits (k := n - 22) f5 e5 (by unfold paddedSize at e1; omega)
  rwa [List.take_take, List.take_take, Nat.min_eq_left (by omega), Nat.min_eq_left (by omega)] at this

/-- C102, serial: a prefix of whole groups needs no more room than the whole.  Partial: the claim is about any prefix, see
`C102_sw_size_false`. -/
theorem C102_sw_size_partial (e e' : Endian) (addr addr' : Nat) (j j' : CompJunk) (p x buf buf' : List Byte) (n' : Nat) (b' : List Byte)
    (hp : p.length % 8 = 0) (h' : sw842Compress e' addr' j' (p ++ x) buf' = .ret none n' b') (hb : n' ≤ buf.length) :
    ∃ n b, sw842Compress e addr j p buf = .ret none n b ∧ n ≤ n' := by
  obtain ⟨f1, f2, f3, f4, f5⟩ := sw842Compress_ok h'
  obtain ⟨A, B, C, h1, h2, h3, h4⟩ := streamBits_prefix p x
  rw [if_pos hp] at h4
  have hle : paddedSize (streamBits p).length ≤ n' := by
    rw [f1, h1, h2, List.length_append, List.length_append]
    exact pad_le (by omega)
  obtain ⟨b, _, hr⟩ := sw842Compress_eq e addr j p buf
  rw [if_pos ⟨by omega, by omega⟩] at hr
  exact ⟨_, b, hr.1, hle⟩

/-- C102, serial: any prefix needs at most 8 bytes more than the whole. -/
theorem C102_sw_size_any (e e' : Endian) (addr addr' : Nat) (j j' : CompJunk) (p x buf buf' : List Byte) (n n' : Nat) (b b' : List Byte)
    (h : sw842Compress e addr j p buf = .ret none n b) (h' : sw842Compress e' addr' j' (p ++ x) buf' = .ret none n' b') : n ≤ n' + 8 := by
  obtain ⟨e1, _⟩ := sw842Compress_ok h
  obtain ⟨f1, _⟩ := sw842Compress_ok h'
  obtain ⟨A, B, C, h1, h2, h3, h4⟩ := streamBits_prefix p x
  have h4' : B.length ≤ C.length + 64 := by split at h4 <;> omega
  rw [e1, f1, h1, h2, List.length_append, List.length_append]
  unfold paddedSize
  omega

/-- Facts about a successful call of `optsw842_compress` -/
theorem opt_ok {e : Endian} {ain aout : Nat} {j : OptJunk} {jsw : CompJunk} {x buf : List Byte} {n : Nat} {b : List Byte}
    (h : optsw842Compress e ain aout j jsw x buf = .ret none n b) :
    x.length % 8 = 0 ∧ n = paddedSize (optBits ain aout x).length ∧ OptLim ain aout n ∧ n ≤ buf.length ∧ b.length = buf.length ∧
      ∃ R, bytesBits (b.take n) = optBits ain aout x ++ R := by
  have h8 : x.length % 8 = 0 := by
    by_contra hc
    rw [optsw842Compress_odd e ain aout j jsw x buf hc] at h
    cases h
  have hne : x ≠ [] ∨ ain % 8 ≠ 0 ∨ aout % 8 ≠ 0 := by
    by_contra hc
    have hal : ain % 8 = 0 ∧ aout % 8 = 0 := ⟨by by_contra h1; exact hc (.inr (.inl h1)), by by_contra h1; exact hc (.inr (.inr h1))⟩
    have hx : x = [] := by by_contra h1; exact hc (.inl h1)
    rw [hx, optsw842Compress_nil e ain aout j jsw buf hal] at h
    cases h
  obtain ⟨b', hl, hr⟩ := optsw842Compress_eq e ain aout j jsw x buf h8 hne
  rcases hr with ⟨h1, h2, h3, h4⟩ | ⟨_, h1⟩
  · rw [h] at h3
    cases h3
    exact ⟨h8, rfl, h2, h1, hl, _, h4⟩
  · rw [h] at h1; cases h1

/-- Both calls use the same code if the buffers of both or those of none are aligned. -/
theorem optBits_prefix {ain aout ain' aout' : Nat} (hal : (ain % 8 = 0 ∧ aout % 8 = 0) ↔ (ain' % 8 = 0 ∧ aout' % 8 = 0)) (p x : List Byte)
    (hp : p.length % 8 = 0) :
    ∃ A B C, optBits ain aout p = A ++ B ∧ optBits ain' aout' (p ++ x) = A ++ C ∧ B.length ≤ 48 ∧ B.length ≤ C.length := by
  unfold optBits
  by_cases hc : ain % 8 ≠ 0 ∨ aout % 8 ≠ 0
  · rw [if_pos hc, if_pos (by omega)]
    have := streamBits_prefix p x
    simpa only [if_pos hp, Nat.add_zero] using this
  · rw [if_neg hc, if_neg (by omega)]
    exact ostreamBits_prefix p x hp

/-- C102, optimized: the output for `p ++ x` begins with the output for `p` but for its last 14 bytes, if the buffers of both calls are aligned or
those of none. -/
theorem C102_opt_prefix (e e' : Endian) (ain aout ain' aout' : Nat) (j j' : OptJunk) (jsw jsw' : CompJunk) (p x buf buf' : List Byte)
    (n n' : Nat) (b b' : List Byte) (hal : (ain % 8 = 0 ∧ aout % 8 = 0) ↔ (ain' % 8 = 0 ∧ aout' % 8 = 0))
    (h : optsw842Compress e ain aout j jsw p buf = .ret none n b) (h' : optsw842Compress e' ain' aout' j' jsw' (p ++ x) buf' = .ret none n' b') :
    b'.take (n - 14) = b.take (n - 14) := by
  obtain ⟨hp, e1, _, e3, e4, R, e5⟩ := opt_ok h
  obtain ⟨_, f1, _, f3, f4, R', f5⟩ := opt_ok h'
  obtain ⟨A, B, C, h1, h2, h3, h4⟩ := optBits_prefix hal p x hp
  rw [h1, List.append_assoc] at e5
  rw [h2, List.append_assoc] at f5
  rw [h1, List.length_append] at e1
  rw [h2, List.length_append] at f1
  have hn : n ≤ n' := by rw [e1, f1]; exact pad_le (by omega)
  have := take_of_bits (k := n - 14) f5 e5 (by unfold paddedSize at e1; omega)
  rwa [List.take_take, List.take_take, Nat.min_eq_left (by omega), Nat.min_eq_left (by omega)] at this

/-- C102, optimized: a prefix needs no more room than the whole. -/
theorem C102_opt_size (e e' : Endian) (ain aout ain' aout' : Nat) (j j' : OptJunk) (jsw jsw' : CompJunk) (p x buf buf' : List Byte)
    (n' : Nat) (b' : List Byte) (hp : p.length % 8 = 0) (hne : p ≠ []) (hal : (ain % 8 = 0 ∧ aout % 8 = 0) ↔ (ain' % 8 = 0 ∧ aout' % 8 = 0))
    (h' : optsw842Compress e' ain' aout' j' jsw' (p ++ x) buf' = .ret none n' b') (hb : n' ≤ buf.length) :
    ∃ n b, optsw842Compress e ain aout j jsw p buf = .ret none n b ∧ n ≤ n' := by
  obtain ⟨_, f1, f2, f3, f4, R', f5⟩ := opt_ok h'
  obtain ⟨A, B, C, h1, h2, h3, h4⟩ := optBits_prefix hal p x hp
  have hle : paddedSize (optBits ain aout p).length ≤ n' := by
    rw [f1, h1, h2, List.length_append, List.length_append]
    exact pad_le (by omega)
  obtain ⟨b, _, hr⟩ := optsw842Compress_eq e ain aout j jsw p buf hp (.inl hne)
  rcases hr with ⟨g1, g2, g3, g4⟩ | ⟨hc, _⟩
  · exact ⟨_, b, g3, hle⟩
  · refine (hc ⟨by omega, ?_⟩).elim
    unfold OptLim at f2 ⊢
    rcases f2 with h5 | h5
    · exact .inl (hal.2 h5)
    · exact .inr (by omega)

/-- C102: seven bytes need more room than eight. -/
theorem C102_sw_size_false : ¬ ∀ (e : Endian) (addr : Nat) (j : CompJunk) (p x buf : List Byte) (n n' : Nat) (b b' : List Byte),
    sw842Compress e addr j p buf = .ret none n b → sw842Compress e addr j (p ++ x) buf = .ret none n' b' → n ≤ n' := by
  intro hall
  have h1 : (view (sw842Compress .little 0 junk0 (List.replicate 7 0) (List.replicate 16 0))).map (fun r => (r.1, r.2.1)) = some (none, 16) := by
    decide +kernel
  have h2 : (view (sw842Compress .little 0 junk0 (List.replicate 7 0 ++ [0]) (List.replicate 16 0))).map (fun r => (r.1, r.2.1)) = some (none, 8) := by
    decide +kernel
  rcases hr : sw842Compress .little 0 junk0 (List.replicate 7 0) (List.replicate 16 0) with ⟨rc, n, b⟩ | _ | _
  · rw [hr] at h1
    simp only [view, Option.map_some, Option.some.injEq, Prod.mk.injEq] at h1
    obtain ⟨rfl, rfl⟩ := h1
    rcases hr' : sw842Compress .little 0 junk0 (List.replicate 7 0 ++ [0]) (List.replicate 16 0) with ⟨rc, n, b'⟩ | _ | _
    · rw [hr'] at h2
      simp only [view, Option.map_some, Option.some.injEq, Prod.mk.injEq] at h2
      obtain ⟨rfl, rfl⟩ := h2
      have := hall _ _ _ _ _ _ _ _ _ _ hr hr'
      omega
    · rw [hr'] at h2; cases h2
    · rw [hr'] at h2; cases h2
  · rw [hr] at h1; cases h1
  · rw [hr] at h1; cases h1

/-- 29 different groups; the last one occurs `r` more times. -/
def exRun (r : Nat) : List Byte :=
  (List.range 232).map (BitVec.ofNat 8) ++ (List.replicate r [224, 225, 226, 227, 228, 229, 230, 231]).flatten

theorem exRun_append : exRun 33 = exRun 1 ++ (List.replicate 32 [224, 225, 226, 227, 228, 229, 230, 231]).flatten := by decide +kernel

/-- C102: 14 bytes cannot be replaced by 13. -/
theorem C102_tight : ¬ ∀ (e : Endian) (addr : Nat) (j : CompJunk) (p x buf : List Byte) (n n' : Nat) (b b' : List Byte),
    p.length % 8 = 0 → sw842Compress e addr j p buf = .ret none n b → sw842Compress e addr j (p ++ x) buf = .ret none n' b' →
      b'.take (n - 13) = b.take (n - 13) := by
  intro hall
  have h1 : (view (sw842Compress .little 0 junk0 (exRun 1) (List.replicate 264 0))).map (fun r => (r.1, r.2.1, r.2.2[250]?)) =
      some (none, 264, some 0xec) := by decide +kernel
  have h2 : (view (sw842Compress .little 0 junk0 (exRun 33) (List.replicate 264 0))).map (fun r => (r.1, r.2.1, r.2.2[250]?)) =
      some (none, 264, some 0xee) := by decide +kernel
  rcases hr : sw842Compress .little 0 junk0 (exRun 1) (List.replicate 264 0) with ⟨rc, n, b⟩ | _ | _
  · rw [hr] at h1
    simp only [view, Option.map_some, Option.some.injEq, Prod.mk.injEq] at h1
    obtain ⟨rfl, rfl, h3⟩ := h1
    rcases hr' : sw842Compress .little 0 junk0 (exRun 33) (List.replicate 264 0) with ⟨rc, n, b'⟩ | _ | _
    · rw [hr'] at h2
      simp only [view, Option.map_some, Option.some.injEq, Prod.mk.injEq] at h2
      obtain ⟨rfl, rfl, h4⟩ := h2
      rw [exRun_append] at hr'
      have := congrArg (fun l => l[250]?) (hall _ _ _ _ _ _ _ _ _ _ (by decide +kernel) hr hr')
      simp only [List.getElem?_take, show 250 < 264 - 13 by decide, show 250 < 264 by decide, if_true] at this h3 h4
      rw [h3, h4] at this
      exact absurd this (by decide)
    · rw [hr'] at h2; cases h2
    · rw [hr'] at h2; cases h2
  · rw [hr] at h1; cases h1
  · rw [hr] at h1; cases h1

/-! Calls as in the theorems, with the optimized version -/

example : (view (optsw842Compress .little 0 0 ojunk0 junk0 [1, 2, 3, 4, 5, 6, 7, 8] (List.replicate 32 0))).map (fun r => (r.1, r.2.1)) = some (none, 16) ∧
    (view (optsw842Compress .little 0 0 ojunk0 junk0 ([1, 2, 3, 4, 5, 6, 7, 8] ++ [8, 7, 6, 5, 4, 3, 2, 1]) (List.replicate 32 0))).map
      (fun r => (r.1, r.2.1)) = some (none, 24) := by decide +kernel

end Lib842.Props
