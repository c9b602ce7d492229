import Verif.Proofs.OptDict
import Verif.Props.Opt
/-!
# C64: the optimised compressor uses the references its dictionary holds

The statements use the entry points of the model, the format (`Verif/Spec.lean`) and the small
specification in `Verif/SpecDict.lean` of what a dictionary with one position per hash holds.
-/

namespace Lib842.Props
open Spec

/-- Every template op of the sequence is at most as long as every template that produces the same 8
bytes and only refers to retrievable values; `out` is what the preceding ops produced. -/
def PicksCheapestRetrievable (ops : List Op) : Prop :=
  ∀ pre code args post out out', ops = pre ++ Op.template code args :: post →
    Run [] pre out → OpStep out (.template code args) out' →
    ∀ code' args', (Op.template code' args').Valid → OpStep out (.template code' args') out' →
      (∀ v ∈ referenced args' (out'.drop out.length), Retrievable out v) →
      (Op.template code args).bits.length ≤ (Op.template code' args').bits.length

theorem runP_picks_ret {out0 : List Byte} {ops : List Op} {out1 : List Byte} (h : RunP OBlockBest out0 ops out1)
    (pre : List Op) (code : Nat) (args : List Arg) (post : List Op) (out out' : List Byte)
    (he : ops = pre ++ Op.template code args :: post) (hr : Run out0 pre out)
    (hs : OpStep out (.template code args) out') (code' : Nat) (args' : List Arg)
    (hv : (Op.template code' args').Valid) (hs' : OpStep out (.template code' args') out')
    (hret : ∀ v ∈ referenced args' (out'.drop out.length), Retrievable out v) :
    (Op.template code args).bits.length ≤ (Op.template code' args').bits.length := by
  induction h generalizing pre with
  | nil => simp at he
  | cons hp hst _ ih =>
    cases pre with
    | nil =>
      cases hr
      rw [List.nil_append] at he
      cases he
      exact hp.2 _ _ rfl _ hs _ _ hv hs' hret
    | cons q pre =>
      rw [List.cons_append] at he
      cases he
      cases hr with
      | cons hst' hr' =>
        have := OpStep.det hp.1.1 hst hst'
        subst this
        exact ih pre rfl hr'

/-- C64: the stream produced by `optsw842_compress` (aligned buffers) consists of ops that expand
to the input, and every template op among them is a cheapest one that refers to retrievable
values only.  Partial: the full claim has no condition on zero groups, see
`C64_same_size_false`. -/
theorem C64_opt_uses_references_partial (e : Endian) (ain aout : Nat) (j : OptJunk) (jsw : CompJunk)
    (x buf : List Byte) (n : Nat) (b : List Byte) (hal : ain % 8 = 0 ∧ aout % 8 = 0)
    (h : optsw842Compress e ain aout j jsw x buf = .ret none n b) :
    ∃ ops R, Expands ops x ∧ bytesBits (b.take n) = ops.flatMap Op.bits ++ trailer x ++ R ∧
      PicksCheapestRetrievable ops := by
  obtain ⟨h8, -, -, -, -, -, hb⟩ := optsw842Compress_ok h
  unfold optBits at hb
  rw [if_neg (by omega)] at hb
  refine ⟨orefOps x, _, (orefOps_expands h8).1, hb, ?_⟩
  intro pre code args post out out' he hr hs code' args' hv hs' hret
  exact runP_picks_ret (orefOps_best h8) pre code args post out out' he hr hs code' args' hv hs' hret

/-- The last 8 bytes of this input can be taken from the start: the value is retrievable, and the
compressor uses the 13-bit template. -/
def exRef : List Byte :=
  [1, 2, 3, 4, 5, 6, 7, 8, 11, 12, 13, 14, 15, 16, 17, 18, 1, 2, 3, 4, 5, 6, 7, 8]

example : Retrievable (exRef.take 16) [1, 2, 3, 4, 5, 6, 7, 8] := by
  refine ⟨0, rfl, by decide, by decide, rfl, ?_, ?_⟩
  · intro o' h1 h2 h3
    have h1' : 0 < o' := h1
    have h2' : o' % 8 = 0 := h2
    have h3' : o' + 8 ≤ 16 := h3
    have : o' = 8 := by omega
    subst this
    decide +kernel
  · intro g _ hg
    have hg' : 8 * g + 8 ≤ 16 := hg
    have : g = 0 ∨ g = 1 := by omega
    rcases this with rfl | rfl <;> decide

example : (view (optsw842Compress .little 0 0 ojunk0 junk0 exRef (List.replicate 40 0))).map (bytesBits ·.2.2) =
    some ((Op.template 0 [.data [1, 2, 3, 4, 5, 6, 7, 8]]).bits ++
      (Op.template 0 [.data [11, 12, 13, 14, 15, 16, 17, 18]]).bits ++
      (Op.template 0x19 [.index 8 0]).bits ++ trailer exRef ++ List.replicate 4 false) := by
  decide +kernel

/-- C64: for the same input of complete groups `optsw842_compress` never produces less than
`sw842_compress`. -/
theorem C64_sw_not_longer (e e' : Endian) (ain aout addr : Nat) (j : OptJunk) (jsw j' : CompJunk)
    (x buf buf' : List Byte) (n n' : Nat) (b b' : List Byte)
    (h : optsw842Compress e ain aout j jsw x buf = .ret none n b)
    (h' : sw842Compress e' addr j' x buf' = .ret none n' b') : n' ≤ n := by
  obtain ⟨h8, -, hn, -, -, -, -⟩ := optsw842Compress_ok h
  obtain ⟨hn', -, -, -, -⟩ := sw842Compress_ok h'
  rw [hn, hn']
  unfold optBits
  split
  · exact Nat.le_refl _
  · have := streamBits_le h8
    unfold paddedSize
    omega

/-- C64: if no two values of the input collide and no group is zero, both compressors produce
the same number of bytes. -/
theorem C64_same_size_partial (e e' : Endian) (ain aout addr : Nat) (j : OptJunk) (jsw j' : CompJunk)
    (x buf buf' : List Byte) (n n' : Nat) (b b' : List Byte) (hcol : NoCollisions x) (hz : NoZeroGroup x 0)
    (h : optsw842Compress e ain aout j jsw x buf = .ret none n b)
    (h' : sw842Compress e' addr j' x buf' = .ret none n' b') : n = n' := by
  obtain ⟨h8, -, hn, -, -, -, -⟩ := optsw842Compress_ok h
  obtain ⟨hn', -, -, -, -⟩ := sw842Compress_ok h'
  rw [hn, hn']
  unfold optBits
  split
  · rfl
  · rw [streamBits_eq h8 hcol hz]

/-- `NoCollisions` for a concrete input -/
def noCollisionsB (x : List Byte) : Bool :=
  [2, 4, 8].all fun n => (List.range (x.length + 1)).all fun o => (List.range (x.length + 1)).all fun o' =>
    !(o % n == 0 && o' % n == 0 && o + n ≤ x.length && o' + n ≤ x.length &&
      dictHash ((x.drop o).take n) == dictHash ((x.drop o').take n)) || (x.drop o).take n == (x.drop o').take n

theorem noCollisions_of {x : List Byte} (h : noCollisionsB x = true) : NoCollisions x := by
  intro n hn o o' h1 h2 h3 h4 h5
  unfold noCollisionsB at h
  rw [List.all_eq_true] at h
  have h := h n (by rcases hn with rfl | rfl | rfl <;> simp)
  rw [List.all_eq_true] at h
  have h := h o (List.mem_range.2 (by omega))
  rw [List.all_eq_true] at h
  have h := h o' (List.mem_range.2 (by omega))
  simpa [h1, h2, h3, h4, h5] using h

example : NoCollisions exRef ∧ NoZeroGroup exRef 0 := by
  refine ⟨noCollisions_of (by decide +kernel), ?_⟩
  intro g _ hg
  have hg' : 8 * g + 8 ≤ 24 := hg
  have : g = 0 ∨ g = 1 ∨ g = 2 := by omega
  rcases this with rfl | rfl | rfl <;> decide

/-- A group, a zero group, and the first group again. -/
def exZero : List Byte :=
  [1, 2, 3, 4, 5, 6, 7, 8, 0, 0, 0, 0, 0, 0, 0, 0, 1, 2, 3, 4, 5, 6, 7, 8]

/-- The condition on zero groups is needed: the hashes are only computed when a template is looked
for, but the tables are updated after every group (842_compress.cpp 407-429, 434-557), so a
zero group takes the place of the group before it. -/
theorem C64_same_size_false :
    ¬ ∀ (e : Endian) (ain aout : Nat) (j : OptJunk) (jsw : CompJunk) (x buf buf' : List Byte) (n n' : Nat)
      (b b' : List Byte), NoCollisions x → optsw842Compress e ain aout j jsw x buf = .ret none n b →
      sw842Compress e ain jsw x buf' = .ret none n' b' → n = n' := by
  intro h
  have hz : NoCollisions exZero := noCollisions_of (by decide +kernel)
  have h1 : ∃ b, optsw842Compress .little 0 0 ojunk0 junk0 exZero (List.replicate 40 0) = .ret none 24 b := by
    have hv : (view (optsw842Compress .little 0 0 ojunk0 junk0 exZero (List.replicate 40 0))).map (fun r => (r.1, r.2.1)) =
        some (none, 24) := by decide +kernel
    cases hc : optsw842Compress .little 0 0 ojunk0 junk0 exZero (List.replicate 40 0) with
    | ret rc n b => rw [hc] at hv; simp [view] at hv; obtain ⟨rfl, rfl⟩ := hv; exact ⟨b, rfl⟩
    | ub => rw [hc] at hv; cases hv
    | timeout => rw [hc] at hv; cases hv
  have h2 : ∃ b, sw842Compress .little 0 junk0 exZero (List.replicate 40 0) = .ret none 16 b := by
    have hv : (view (sw842Compress .little 0 junk0 exZero (List.replicate 40 0))).map (fun r => (r.1, r.2.1)) =
        some (none, 16) := by decide +kernel
    cases hc : sw842Compress .little 0 junk0 exZero (List.replicate 40 0) with
    | ret rc n b => rw [hc] at hv; simp [view] at hv; obtain ⟨rfl, rfl⟩ := hv; exact ⟨b, rfl⟩
    | ub => rw [hc] at hv; cases hv
    | timeout => rw [hc] at hv; cases hv
  obtain ⟨b, h1⟩ := h1
  obtain ⟨b', h2⟩ := h2
  exact absurd (h _ _ _ _ _ _ _ _ _ _ _ _ hz h1 h2) (by decide)

end Lib842.Props
