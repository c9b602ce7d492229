import Verif.Proofs.ClOptions
import Verif.Model.ClCache
/-!
# The OpenCL kernel is compiled for the parameters of the decompressor (C98)

How the options are read is specified in `SpecClOptions.lean`.
-/

namespace Lib842.Props
open Spec

/-- What the kernel has to be compiled with -/
def OptionsOk (o : List Char) (cs st : BitVec 64) (fmt : ClFormat) : Prop :=
  (macroOf o "CL842_CHUNK_SIZE").bind number = some cs.toNat ∧ (macroOf o "CL842_CHUNK_STRIDE").bind number = some st.toNat ∧
  (macroOf o "EINVAL").bind number = some 22 ∧ (macroOf o "ENOSPC").bind number = some 28 ∧
  (macroOf o "LIB842_COMPRESSED_CHUNK_MARKER_DEF").bind initializer = (if fmt = .always then none else some (chunkMarker.map BitVec.toNat)) ∧
  ((macroOf o "USE_MAYBE_COMPRESSED_CHUNKS").isSome ↔ fmt = .maybe) ∧ ((macroOf o "USE_INPLACE_COMPRESSED_CHUNKS").isSome ↔ fmt = .inplace)

theorem lookup_four {a b c d va vb vc vd : List Char} {l : List (List Char × List Char)} {n : List Char} :
    (n = a → ([(a, va), (b, vb), (c, vc), (d, vd)] ++ l).lookup n = some va) ∧
    (n ≠ a → n = b → ([(a, va), (b, vb), (c, vc), (d, vd)] ++ l).lookup n = some vb) ∧
    (n ≠ a → n ≠ b → n = c → ([(a, va), (b, vb), (c, vc), (d, vd)] ++ l).lookup n = some vc) ∧
    (n ≠ a → n ≠ b → n ≠ c → n = d → ([(a, va), (b, vb), (c, vc), (d, vd)] ++ l).lookup n = some vd) ∧
    (n ≠ a → n ≠ b → n ≠ c → n ≠ d → ([(a, va), (b, vb), (c, vc), (d, vd)] ++ l).lookup n = l.lookup n) := by
  simp only [List.cons_append, List.nil_append, List.lookup]
  refine ⟨?_, ?_, ?_, ?_, ?_⟩ <;> intros <;> repeat' (split <;> simp_all)

theorem options_lookup {p : NumPunct} (hs : p.sep ≠ ' ') (cs st : BitVec 64) (fmt : ClFormat) :
    macroOf (buildOptions p cs st fmt) "CL842_CHUNK_SIZE" = some (putNumber p cs.toNat) ∧
    macroOf (buildOptions p cs st fmt) "CL842_CHUNK_STRIDE" = some (putNumber p st.toNat) ∧
    macroOf (buildOptions p cs st fmt) "EINVAL" = some (putNumber p 22) ∧ macroOf (buildOptions p cs st fmt) "ENOSPC" = some (putNumber p 28) ∧
    macroOf (buildOptions p cs st fmt) "LIB842_COMPRESSED_CHUNK_MARKER_DEF" =
      (if fmt = .always then none else some ('{' :: (putMarker p chunkMarker ++ ['}']))) ∧
    macroOf (buildOptions p cs st fmt) "USE_MAYBE_COMPRESSED_CHUNKS" = (if fmt = .maybe then some ['1'] else none) ∧
    macroOf (buildOptions p cs st fmt) "USE_INPLACE_COMPRESSED_CHUNKS" = (if fmt = .inplace then some ['1'] else none) := by
  have key : ∀ {name : String} {r : Option (List Char)}, _ → macroOf (buildOptions p cs st fmt) name = r := fun {name r} h =>
    (macroOf_options hs cs st fmt name).trans ((congrArg (List.lookup name.toList) (List.append_assoc _ _ _)).trans h)
  refine ⟨key (lookup_four.1 rfl), key (lookup_four.2.1 (by decide) rfl), key (lookup_four.2.2.1 (by decide) (by decide) rfl),
    key (lookup_four.2.2.2.1 (by decide) (by decide) (by decide) rfl),
    key ((lookup_four.2.2.2.2 (by decide) (by decide) (by decide) (by decide)).trans ?_),
    key ((lookup_four.2.2.2.2 (by decide) (by decide) (by decide) (by decide)).trans ?_),
    key ((lookup_four.2.2.2.2 (by decide) (by decide) (by decide) (by decide)).trans ?_)⟩ <;> cases fmt <;> rfl

/-- C98, partial: every locale that writes no separators into the numbers in question.  Missing are the others (`C98_locale_false`). -/
theorem C98_options_partial (p : NumPunct) (hs : p.sep ≠ ' ') (cs st : BitVec 64) (fmt : ClFormat)
    (h : ∀ g gs, p.grouping = g :: gs → g = 0 ∨ (3 ≤ g ∧ cs.toNat < 10 ^ g ∧ st.toNat < 10 ^ g)) :
    OptionsOk (buildOptions p cs st fmt) cs st fmt := by
  have hpl : ∀ n, n < 1000 ∨ n = cs.toNat ∨ n = st.toNat → p.Plain n := by
    intro n hn g gs hg
    rcases h g gs hg with h0 | ⟨h3, h1, h2⟩
    · exact .inl h0
    · right
      have : 10 ^ 3 ≤ 10 ^ g := Nat.pow_le_pow_right (by omega) h3
      rcases hn with hn | rfl | rfl
      · omega
      · exact h1
      · exact h2
  obtain ⟨h1, h2, h3, h4, h5, h6, h7⟩ := options_lookup hs cs st fmt
  unfold OptionsOk
  rw [h1, h2, h3, h4, h5, h6, h7]
  refine ⟨number_putNumber (size_lt cs) (hpl _ (.inr (.inl rfl))), number_putNumber (size_lt st) (hpl _ (.inr (.inr rfl))),
    number_putNumber (by decide) (hpl _ (.inl (by decide))), number_putNumber (by decide) (hpl _ (.inl (by decide))), ?_, ?_, ?_⟩
  · have hm : putMarker p chunkMarker = putMarker .classic chunkMarker := by
      unfold putMarker
      rw [List.flatMap_def, List.flatMap_def]
      refine congrArg List.flatten (List.map_congr_left fun b _ => ?_)
      have hb : b.toNat < 10 ^ 20 := Nat.lt_of_lt_of_le b.isLt (by decide)
      rw [putNumber_plain hb (hpl _ (.inl (Nat.lt_of_lt_of_le b.isLt (by decide)))), putNumber_plain hb]
      intro g gs hg
      cases hg
    rw [hm]
    cases fmt
    · rfl
    · decide +kernel
    · decide +kernel
  · cases fmt <;> simp
  · cases fmt <;> simp

/-- C98 for a program that does not change its locale: all sizes and formats. -/
theorem C98_options_classic_partial (cs st : BitVec 64) (fmt : ClFormat) : OptionsOk (buildOptions .classic cs st fmt) cs st fmt :=
  C98_options_partial .classic (by decide) cs st fmt fun g gs hg => by cases hg

/-- C98, exactly which locales: with a separator that is no digit and no space, the chunk size is what it should be if and only if no separator is
written. -/
theorem C98_locale_exact (p : NumPunct) (hs : p.sep ≠ ' ') (hd : digitVal p.sep = none) (cs st : BitVec 64) (fmt : ClFormat) :
    (macroOf (buildOptions p cs st fmt) "CL842_CHUNK_SIZE").bind number = some cs.toNat ↔
      ∀ g gs, p.grouping = g :: gs → g = 0 ∨ cs.toNat < 10 ^ g := by
  rw [(options_lookup hs cs st fmt).1]
  exact number_putNumber_iff hd (size_lt cs)

/-- C98 is false: with the grouping of `en_US` the chunk size of the wrapper `cl842_decompress` is `65,536`. -/
theorem C98_locale_false : macroOf (buildOptions ⟨',', [3]⟩ 65536 99999 .always) "CL842_CHUNK_SIZE" = some "65,536".toList ∧
    ¬ OptionsOk (buildOptions ⟨',', [3]⟩ 65536 99999 .always) 65536 99999 .always := by
  have h : macroOf (buildOptions ⟨',', [3]⟩ 65536 99999 .always) "CL842_CHUNK_SIZE" = some "65,536".toList := by decide +kernel
  refine ⟨h, fun hc => ?_⟩
  have := hc.1
  rw [h] at this
  revert this
  decide +kernel

/-- C98: the members of the key of the program cache are exactly what the options depend on: programs with equal keys are compiled with the same
options, and programs with different sizes or formats with different ones. -/
theorem C98_cache_key (cs st cs' st' : BitVec 64) (fmt fmt' : ClFormat) :
    buildOptions .classic cs st fmt = buildOptions .classic cs' st' fmt' ↔ cs = cs' ∧ st = st' ∧ fmt = fmt' := by
  constructor
  · intro h
    obtain ⟨h1, h2, -, -, -, h6, h7⟩ := C98_options_classic_partial cs st fmt
    obtain ⟨g1, g2, -, -, -, g6, g7⟩ := C98_options_classic_partial cs' st' fmt'
    rw [h] at h1 h2 h6 h7
    rw [h1] at g1
    rw [h2] at g2
    refine ⟨BitVec.eq_of_toNat_eq (Option.some.inj g1), BitVec.eq_of_toNat_eq (Option.some.inj g2), ?_⟩
    have a := h6.symm.trans g6
    have b := h7.symm.trans g7
    cases fmt <;> cases fmt' <;> simp_all
  · rintro ⟨rfl, rfl, rfl⟩
    rfl

/-- The options of the streams sample, as text -/
example : String.ofList (buildOptions .classic 65536 65536 .inplace) = "-D CL842_CHUNK_SIZE=65536 -D CL842_CHUNK_STRIDE=65536 -D EINVAL=22 -D ENOSPC=28 " ++
    "-D LIB842_COMPRESSED_CHUNK_MARKER_DEF={190,90,70,191,151,229,45,215,178,124,148,26,238,214,112,118,} -D USE_INPLACE_COMPRESSED_CHUNKS=1" := by
  decide +kernel

/-- A locale with separators, and sizes for which it writes none -/
example : OptionsOk (buildOptions ⟨'.', [3]⟩ 512 999 .maybe) 512 999 .maybe :=
  C98_options_partial ⟨'.', [3]⟩ (by decide) 512 999 .maybe fun g gs hg => by cases hg; decide

end Lib842.Props
