import Verif.Spec
import Verif.Model.Templates
import Verif.Model.OptComp
import Verif.Model.OptDecomp
/-!
# C19: every implementation uses the template table of the format

For a template of the specification, `layout` lists its arguments with the byte position
of the result inside the 8-byte group and the number of argument bits that follow it in
the stream.  Each table, switch or formula of the code is translated into the same
vocabulary and compared row by row.  The tables are finite, so a comparison of all rows is
a complete proof.
-/

namespace Lib842.Props

open Lib842 Lib842.Spec

/-- Bytes produced by an argument -/
def actionSize : Action → Nat
  | .D n => n
  | .I n => n

/-- Bits taken by an argument -/
def actionBits : Action → Nat
  | .D n => 8 * n
  | .I n => indexBits n

/-- Argument, byte position in the group, number of argument bits after it -/
def layout : Nat → List Action → List (Action × Nat × Nat)
  | _, [] => []
  | pos, a :: as => (a, pos, (as.map actionBits).sum) :: layout (pos + actionSize a) as

/-- All argument bits of a template -/
def totalBits (as : List Action) : Nat := (as.map actionBits).sum

/-- Literal arguments cut into 2-byte pieces -/
def split2 (as : List Action) : List Action :=
  as.flatMap fun
    | .D n => List.replicate (n / 2) (.D 2)
    | .I n => [.I n]

/-- Decode an action byte of the serial tables -/
def ofNibbles (t : Nat) : List Action :=
  if t / 16 = 2 then [.D (t % 16)] else if t / 16 = 1 then [.I (t % 16)] else []

/-- Every template of the format produces 8 bytes. -/
theorem C19_spec_eight_bytes : ∀ as ∈ templates, (as.map actionSize).sum = 8 := by decide

/-- Compressor table of the serial version: for every template code there is exactly one
row with that code, and its actions are those of the format. -/
theorem C19_sw_compress (code : Nat) (as : List Action) (h : templates[code]? = some as) :
    (compOps.filter fun r => r[4]? = some code).map (fun r => (r.take 4).flatMap ofNibbles) = [as] := by
  have hlt : code < 26 := by
    have := (List.getElem?_eq_some_iff.1 h).1
    simpa [templates] using this
  have hc : ∀ c < 26,
    (compOps.filter fun r => r[4]? = some c).map (fun r => (r.take 4).flatMap ofNibbles)
      = (templates[c]?).toList := by decide +kernel
  rw [hc code hlt, h]; rfl

/-- Decompressor table of the serial version -/
theorem C19_sw_decompress : decompOps.map (fun r => r.flatMap ofNibbles) = templates := by decide

/-- Statements of the optimized decompressor: action, and where its bits are -/
def ofStep : OptStep → Action × Nat × Nat
  | .data n shift width => (.D n, shift, width)
  | .index n shift width _ => (.I n, shift, width)

/-- Switch of the optimized decompressor: number of bits read, order and kind of the
statements, position and width of each field, ring size. -/
theorem C19_opt_decompress :
    optSwitch.map (fun r => (r.1, r.2.map ofStep)) =
      templates.map (fun as => (totalBits as,
        (layout 0 as).map fun x => (x.1, x.2.2, actionBits x.1))) ∧
    (∀ r ∈ optSwitch, ∀ n shift width fsize,
      OptStep.index n shift width fsize ∈ r.2 → fsize = ringSize n) := by
  constructor
  · decide
  · have h : ∀ r ∈ optSwitch, ∀ s ∈ r.2,
      (match s with | .index n _ _ fsize => decide (fsize = ringSize n) | _ => true) = true := by
      decide +kernel
    intro r hr n shift width fsize hs
    simpa using h r hr _ hs

/-- Meaning of a position of `dataAndIndices` -/
def ofDai (i : Nat) : Option (Action × Nat) :=
  if i < 4 then some (.D 2, 2 * i)
  else if i < 6 then some (.D 4, 4 * (i - 4))
  else if i = 6 then some (.D 8, 0)
  else if i < 11 then some (.I 2, 2 * (i - 7))
  else if i < 13 then some (.I 4, 4 * (i - 11))
  else if i = 13 then some (.I 8, 0)
  else if i = 14 then some (.D 4, 2)
  else none

/-- Meaning of an operand of `add_template` -/
def ofSrc : OptSrc → Option (Action × Nat)
  | .code => none
  | .dai i => ofDai i
  | .mid => some (.D 4, 2)

set_option synthInstance.maxSize 1000 in
/-- Switch of the optimized compressor, templates 0x01 to 0x19: bits written, template code in front,
then the arguments in order, each at its place. -/
theorem C19_opt_compress (code : Nat) (as : List Action) (h : templates[code]? = some as)
    (h0 : code ≠ 0) :
    ∃ n fs, optRows[code - 1]? = some (n, fs) ∧ n = 5 + totalBits as ∧
      fs.head? = some (.code, totalBits as) ∧
      fs.tail.map (fun f => (ofSrc f.1, f.2)) =
        (layout 0 as).map (fun x => (some (x.1, x.2.1), x.2.2)) := by
  have hlt : code < 26 := by
    have := (List.getElem?_eq_some_iff.1 h).1
    simpa [templates] using this
  have hd : ∀ c < 25,
      (optRows[c]?).map (fun r => (r.1, r.2.head?, r.2.tail.map (fun f => (ofSrc f.1, f.2)))) =
        (templates[c + 1]?).map fun as => (5 + totalBits as, some (OptSrc.code, totalBits as),
          (layout 0 as).map (fun x => (some (x.1, x.2.1), x.2.2))) := by decide +kernel
  have := hd (code - 1) (by omega)
  rw [Nat.sub_add_cancel (by omega), h] at this
  cases ho : optRows[code - 1]? with
  | none => rw [ho] at this; cases this
  | some r =>
    rw [ho] at this
    simp only [Option.map_some, Option.some.injEq, Prod.mk.injEq] at this
    exact ⟨r.1, r.2, rfl, this.1, this.2.1, this.2.2⟩

/-- Branch-free table of the optimized compressor: the non-empty entries are the arguments
in order, with the right source and width. -/
theorem C19_branch_free_compress :
    bfTemplates.map (fun r => (r.filter fun e => e.2 ≠ 0).map fun e => (ofDai e.1, e.2)) =
      templates.map (fun as => (layout 0 as).map fun x => (some (x.1, x.2.1), actionBits x.1)) ∧
    (∀ r ∈ bfTemplates, r.length = 4 ∧ ∀ e ∈ r, e.2 = 0 → e.1 = 15) := by decide +kernel

/-- CUDA table -/
theorem C19_cuda :
    cudaTemplates.map (fun r => (r.filter fun e => e.2 ≠ 0).map fun e =>
        (if e.1 / 128 = 1 then Action.I e.2 else Action.D e.2, e.1 % 128)) =
      templates.map (fun as => as.map fun a => (a, actionBits a)) ∧
    (∀ r ∈ cudaTemplates, r.length = 4 ∧ ∀ e ∈ r, e.2 = 0 → e.1 = 0) ∧
    (∀ as ∈ templates, ∀ a ∈ as, ∀ n, a = .I n → cudaFifoSizes[n]? = some (ringSize n)) := by
  refine ⟨by decide +kernel, by decide +kernel, ?_⟩
  have h : ∀ as ∈ templates, ∀ a ∈ as,
    (match a with | .I n => decide (cudaFifoSizes[n]? = some (ringSize n)) | _ => true) = true := by
    decide +kernel
  intro as has a ha n hn
  have := h as has a ha
  subst hn
  simpa using this

/-- The four steps of the formula-driven `do_op`: kind, destination size, bits -/
def formulaSteps (op : Nat) : List (Action × Nat) :=
  ((List.range 4).filter fun i => oclDstSize op i ≠ 0).map fun i =>
    (if oclIsIndex op i = 1 then .I (oclDstSize op i) else .D (oclDstSize op i), oclNumBits op i)

/-- OpenCL and branch-free decompressor formulas, templates 0x00 to 0x18 (0x19 is a separate
`case` in both): number of bits read, the arguments with literals cut into 2-byte
pieces, empty steps read nothing, ring sizes. -/
theorem C19_formulas (op : Nat) (as : List Action) (h : templates[op]? = some as) (h25 : op ≠ 25) :
    oclOpbits op = totalBits as ∧
    formulaSteps op = (split2 as).map (fun a => (a, actionBits a)) ∧
    (∀ i < 4, (oclDstSize op i = 0 ↔ oclNumBits op i = 0) ∧
      (oclIsIndex op i = 1 → oclFifoSize (oclDstSize op i) = ringSize (oclDstSize op i)) ∧
      (oclIsIndex op i = 0 ∨ oclIsIndex op i = 1)) := by
  have hlt : op < 26 := by
    have := (List.getElem?_eq_some_iff.1 h).1
    simpa [templates] using this
  have hd : ∀ c < 25,
      ((oclOpbits c, formulaSteps c) =
        ((templates[c]?).elim 0 totalBits,
          (templates[c]?).elim [] fun as => (split2 as).map (fun a => (a, actionBits a)))) ∧
      (∀ i < 4, (oclDstSize c i = 0 ↔ oclNumBits c i = 0) ∧
      (oclIsIndex c i = 1 → oclFifoSize (oclDstSize c i) = ringSize (oclDstSize c i)) ∧
      (oclIsIndex c i = 0 ∨ oclIsIndex c i = 1)) := by decide +kernel
  obtain ⟨h1, h2⟩ := hd op (by omega)
  rw [h] at h1
  simp only [Option.elim_some, Prod.mk.injEq] at h1
  exact ⟨h1.1, h1.2, h2⟩

/-- HLS length table: argument bits of the templates, of repeat, and none for zeros and
end -/
theorem C19_hls :
    (∀ op as, templates[op]? = some as → hlsParamLength op = totalBits as) ∧
    hlsParamLength 0x1B = 6 ∧ hlsParamLength 0x1C = 0 ∧ hlsParamLength 0x1E = 0 := by
  refine ⟨?_, by decide, by decide, by decide⟩
  intro op as h
  have hlt : op < 26 := by
    have := (List.getElem?_eq_some_iff.1 h).1
    simpa [templates] using this
  have hd : ∀ c < 26, some (hlsParamLength c) = (templates[c]?).map totalBits := by decide +kernel
  have := hd op hlt
  rw [h] at this
  simpa using this

/-- A row as an example: template 0x0b is I2, D4, I2; its literal is at bytes 2 to 5, with
8 argument bits after it. -/
example : layout 0 [.I 2, .D 4, .I 2] = [(.I 2, 0, 40), (.D 4, 2, 8), (.I 2, 6, 0)] ∧
    templates[0x0b]? = some [.I 2, .D 4, .I 2] := by decide

end Lib842.Props
