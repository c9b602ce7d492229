import Verif.Proofs.Cl2c
/-!
# Properties of the tool that embeds files into C sources

C50, C60.
-/

namespace Lib842.Props
open Lib842 Spec

section
variable (name file : List Byte) (hn : isIdentifier name = true)
include hn

/-- C50: the value of the constant in the generated source is the file, byte for byte. -/
theorem C50_value : Declares (cl2cText name file) name file := by
  refine ⟨hn, [10, 34] ++ (file.flatMap cl2cChar ++ [34, 10, 59, 10]), ?_, ?_⟩
  · have : cl2cText name file =
        (constCharPtr ++ name ++ [32, 61] ++ [10, 34]) ++ (file.flatMap cl2cChar ++ [34, 10, 59, 10]) := by
      simp only [cl2cText, constCharPtr, List.append_assoc, List.cons_append, List.nil_append]
    rw [this, splice_append, splice_body]
    · simp only [List.append_assoc]
    · intro c hc
      simp only [List.append_assoc, List.mem_append] at hc
      rcases hc with hc | hc | hc | hc
      · revert c; decide
      · exact (identifier_mem hn c hc).1
      · revert c; decide
      · revert c; decide
  · show literals .inside _ = _
    exact literals_body file

/-- C50: used as a C string, as the program does, it is the file if that contains no NUL. -/
theorem C50_string (h0 : ∀ c ∈ file, c ≠ 0) : ∃ value, Declares (cl2cText name file) name value ∧
    cString (value ++ [0]) = file := by
  refine ⟨file, C50_value name file hn, ?_⟩
  unfold cString
  rw [List.takeWhile_append_of_pos]
  · simp
  · intro c hc
    simpa using h0 c hc

/-- C50: also with a compiler that replaces trigraphs, unless the file contains `??`. -/
theorem C50_value_trigraphs (h : ¬ [63, 63] <:+: file) : Declares (trigraphs (cl2cText name file)) name file := by
  have : trigraphs (cl2cText name file) = cl2cText name file := by
    have : cl2cText name file =
        (constCharPtr ++ name ++ [32, 61] ++ [10, 34]) ++ (file.flatMap cl2cChar ++ [34, 10, 59, 10]) := by
      simp only [cl2cText, constCharPtr, List.append_assoc, List.cons_append, List.nil_append]
    rw [this, trigraphs_append, trigraphs_body _ h]
    intro c hc
    simp only [List.append_assoc, List.mem_append] at hc
    rcases hc with hc | hc | hc | hc
    · revert c; decide
    · exact (identifier_mem hn c hc).2
    · revert c; decide
    · revert c; decide
  rw [this]
  exact C50_value name file hn

/-- C60, partial: under the additional hypothesis that both files can be opened, the status of success means
that the output declares the contents of the input. -/
theorem C60_status_partial (a b : List Byte) :
    ∃ out, cl2cMain [a, b, name] (some file) true = (0, some out) ∧ Declares out name file :=
  ⟨_, rfl, C50_value name file hn⟩

end

/-- The value is unique: `Declares` is a function of the text and the name. -/
theorem C50_unique (text name v v' : List Byte) (h : Declares text name v) (h' : Declares text name v') : v = v' := by
  obtain ⟨-, l, h1, h2⟩ := h
  obtain ⟨-, l', h1', h2'⟩ := h'
  rw [h1] at h1'
  have := List.append_cancel_left h1'
  subst this
  rw [h2] at h2'
  cases h2'
  rfl

/-- C60: a wrong number of arguments is reported. -/
theorem C60_usage (args : List (List Byte)) (h : args.length ≠ 3) (input : Option (List Byte)) (o : Bool) :
    cl2cMain args input o = (1, none) := by
  unfold cl2cMain
  split
  · exact absurd rfl h
  · rfl

/-! ## Instances -/

/-- The characters `a`, quote, backslash, newline as the value of `src_1` -/
theorem C50_instance : isIdentifier [115, 114, 99, 95, 49] = true ∧
    cl2cText [115, 114, 99, 95, 49] [97, 34, 92, 10] =
      constCharPtr ++ [115, 114, 99, 95, 49, 32, 61, 10, 34, 97, 92, 34, 92, 92, 92, 110, 34, 10, 34, 34, 10, 59, 10] ∧
    ¬ [63, 63] <:+: ([97, 34, 92, 10] : List Byte) := by decide

/-- With trigraphs the condition is needed: `??/n` becomes a newline. -/
theorem C50_trigraphs_false : Declares (trigraphs (cl2cText [115] [63, 63, 47, 110])) [115] [10] ∧
    ¬ Declares (trigraphs (cl2cText [115] [63, 63, 47, 110])) [115] [63, 63, 47, 110] := by
  have h : Declares (trigraphs (cl2cText [115] [63, 63, 47, 110])) [115] [10] :=
    ⟨by decide, [10, 34, 92, 110, 34, 10, 59, 10], by decide +kernel, by decide⟩
  refine ⟨h, fun h' => ?_⟩
  have := C50_unique _ _ _ _ h h'
  revert this
  decide

/-- The condition on NUL is needed, too. -/
theorem C50_nul_false : cString (([97, 0, 98] : List Byte) ++ [0]) = [97] := by decide

/-- C60 is false: without an input file an empty string is declared, with the status of success. -/
theorem C60_missing_input_false : ∃ out, cl2cMain [[97], [98], [115]] none true = (0, some out) ∧ Declares out [115] [] :=
  ⟨_, rfl, C50_value [115] [] (by decide)⟩

/-- C60 is false: success is reported without any output. -/
theorem C60_no_output_false (file : Option (List Byte)) : cl2cMain [[97], [98], [115]] file false = (0, none) := rfl

end Lib842.Props
