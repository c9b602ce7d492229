import Verif.Proofs.History
import Verif.Proofs.Expansion
import Verif.Proofs.Prefix
import Verif.Proofs.Minimal
import Verif.Proofs.Torn
import Verif.Props.Ocl
import Verif.Props.Opt
import Verif.Props.Sw
/-!
# A decoder needs the last 2 KiB of its output, and no more (C105)
-/

namespace Lib842.Props
open Spec

/-- C105 for the format: what a sequence of ops appends to the output depends on the complete groups among the last bytes of it, of which there
have to be 2048 bytes (`w`), and on the length modulo 2048; whatever is in front (`p`, `p'`) does not matter, neither for the bytes appended nor
for whether the ops are accepted. -/
theorem C105_window (ops : List Op) (hv : ∀ op ∈ ops, op.Valid) (p p' w x : List Byte) (hp : p.length % 2048 = p'.length % 2048)
    (hw : p.length + 2048 ≤ 8 * ((p.length + w.length) / 8)) :
    Run (p ++ w) ops (p ++ w ++ x) ↔ Run (p' ++ w) ops (p' ++ w ++ x) := by
  constructor
  · intro h
    obtain ⟨w', h1, h2⟩ := hist_run hp hv hw h
    rw [List.append_assoc] at h1
    rw [← List.append_cancel_left h1, ← List.append_assoc] at h2
    exact h2
  · intro h
    obtain ⟨w', h1, h2⟩ := hist_run hp.symm hv (by omega) h
    rw [List.append_assoc] at h1
    rw [← List.append_cancel_left h1, ← List.append_assoc] at h2
    exact h2

/-- C105: 2048 is the least number: with the same 2040 bytes at the end of the output the same op can give different bytes. -/
theorem C105_tight (p p' w : List Byte) (hp : p.length = 8) (hp' : p'.length = 8) (hw : w.length = 2040) :
    (Op.template 0x19 [.index 8 0]).Valid ∧ Run (p ++ w) [.template 0x19 [.index 8 0]] (p ++ w ++ p) ∧
      Run (p' ++ w) [.template 0x19 [.index 8 0]] (p' ++ w ++ p') := by
  have h : ∀ q : List Byte, q.length = 8 → Run (q ++ w) [.template 0x19 [.index 8 0]] (q ++ w ++ q) := by
    intro q hq
    have : ((q ++ w).drop 0).take 8 = q := by
      rw [List.drop_zero, List.take_append_of_le_length (by omega), List.take_of_length_le (by omega)]
    refine .cons (.template (.cons (out' := q ++ w ++ q) ?_ .nil)) .nil
    have h2 : ArgStep (q ++ w) (.index 8 0) (q ++ w ++ ((q ++ w).drop 0).take 8) :=
      .index ⟨by decide, by rw [List.length_append]; omega, by rw [List.length_append]; simp [ringSize, indexBits]; omega⟩
    rwa [this] at h2
  refine ⟨⟨by decide, ?_⟩, h p hp, h p' hp'⟩
  intro a ha
  simp only [List.mem_singleton] at ha
  subst ha
  show 0 < 2 ^ indexBits 8
  decide

/-- The stream with a new beginning is a stream of the format. -/
theorem splice_expands {ops ops1 ops2 : List Op} {p p' w x : List Byte} (h1 : Expands ops1 (p ++ w))
    (h : Expands (ops1 ++ ops2) (p ++ w ++ x)) (h1' : Expands ops (p' ++ w)) (hp : p.length % 2048 = p'.length % 2048)
    (hw : p.length + 2048 ≤ 8 * ((p.length + w.length) / 8)) : Expands (ops ++ ops2) (p' ++ w ++ x) := by
  obtain ⟨b, h2, h3⟩ := run_split h.2
  rw [run_det h2 h1.2] at h3
  refine ⟨fun o ho => ?_, Lib842.Run.append h1'.2 ((C105_window ops2 (fun o ho => h.1 o (by simp [ho])) p p' w x hp hw).1 h3)⟩
  rcases List.mem_append.1 ho with ho | ho
  · exact h1'.1 o ho
  · exact h.1 o (by simp [ho])

/-- C105 for `sw842_decompress`: decoding can be resumed in the middle of a stream.  Of a stream (`ops1`, `ops2`, decoding to `p ++ w ++ x`) the first
part is replaced by anything that gives the 2 KiB in front of the second part (`ops`, giving `p' ++ w`; its size has to be the same modulo 2048):
the second part decodes to the same bytes `x`. -/
theorem C105_sw_resume (e : Endian) (addr : Nat) (inp buf : List Byte) (ops ops1 ops2 : List Op) (p p' w x : List Byte) (rest : List Bool)
    (h1 : Expands ops1 (p ++ w)) (h : Expands (ops1 ++ ops2) (p ++ w ++ x)) (h1' : Expands ops (p' ++ w))
    (hp : p.length % 2048 = p'.length % 2048) (hw : p.length + 2048 ≤ 8 * ((p.length + w.length) / 8))
    (hin : bytesBits inp = (ops ++ ops2).flatMap Op.bits ++ trailer (p' ++ w ++ x) ++ rest)
    (hb : (p' ++ w ++ x).length ≤ buf.length) (hm : (p' ++ w ++ x).length ≤ 0xffffffff) :
    ∃ b, sw842Decompress e addr inp buf = .ret none (p' ++ w ++ x).length b ∧ b.take (p' ++ w ++ x).length = p' ++ w ++ x :=
  (C13_sw_accepts_exactly_format e addr inp buf _).2 ⟨⟨_, _, splice_expands h1 h h1' hp hw, hin⟩, hb, hm⟩

/-- C105 for `optsw842_decompress` -/
theorem C105_opt_resume (e : Endian) (ain aout : Nat) (hal : ain % 8 = 0 ∧ aout % 8 = 0) (inp buf : List Byte) (ops ops1 ops2 : List Op)
    (p p' w x : List Byte) (rest : List Bool) (h1 : Expands ops1 (p ++ w)) (h : Expands (ops1 ++ ops2) (p ++ w ++ x)) (h1' : Expands ops (p' ++ w))
    (hs : ∀ op ∈ ops ++ ops2, op.isShort = false) (h8 : inp.length % 8 = 0)
    (hp : p.length % 2048 = p'.length % 2048) (hw : p.length + 2048 ≤ 8 * ((p.length + w.length) / 8))
    (hin : bytesBits inp = (ops ++ ops2).flatMap Op.bits ++ trailer (p' ++ w ++ x) ++ rest)
    (hb : (p' ++ w ++ x).length ≤ buf.length) :
    ∃ b, optsw842Decompress e ain aout inp buf = .ret none (p' ++ w ++ x).length b ∧ b.take (p' ++ w ++ x).length = p' ++ w ++ x := by
  refine (C14_opt_accepts_exactly_format e ain aout inp buf _ hal).2 ⟨?_, hb⟩
  rw [show 8 * (inp.length / 8) = inp.length by omega, List.take_length]
  exact ⟨_, _, splice_expands h1 h h1' hp hw, hs, hin⟩

/-- C105 for the OpenCL decoder -/
theorem C105_ocl_resume (e : Endian) (inp buf : List Byte) (ops ops1 ops2 : List Op)
    (p p' w x : List Byte) (rest : List Bool) (h1 : Expands ops1 (p ++ w)) (h : Expands (ops1 ++ ops2) (p ++ w ++ x)) (h1' : Expands ops (p' ++ w))
    (hs : ∀ op ∈ ops ++ ops2, op.isShort = false) (h8 : inp.length % 8 = 0)
    (hp : p.length % 2048 = p'.length % 2048) (hw : p.length + 2048 ≤ 8 * ((p.length + w.length) / 8))
    (hin : bytesBits inp = (ops ++ ops2).flatMap Op.bits ++ trailer (p' ++ w ++ x) ++ rest)
    (hb : (p' ++ w ++ x).length ≤ buf.length) :
    oclCore e (some inp) 0 inp.length buf buf.length =
      .ret none (p' ++ w ++ x).length ((p' ++ w ++ x) ++ buf.drop (p' ++ w ++ x).length) :=
  C43_ocl_accepts_format e inp buf _ inp.length buf.length h8 (le_refl _)
    (by rw [List.take_length]; exact ⟨_, _, splice_expands h1 h h1' hp hw, hs, hin⟩) hb hb

/-- C105 for the memory: an index that `sw842_decompress` accepts makes it read inside the last 2048 bytes of the complete groups
(`C22_opt_index`, `C22_ocl_index`: the other decoders read the same bytes). -/
theorem C105_sw_reach (len size i : Nat) (hs : size = 2 ∨ size = 4 ∨ size = 8) (hi : i < 2 ^ indexBits size)
    (h : indexOffset i size (ringSize size) (roundDown len 8) + size ≤ roundDown len 8) :
    8 * (len / 8) - 2048 ≤ indexOffset i size (ringSize size) (roundDown len 8) ∧
      indexOffset i size (ringSize size) (roundDown len 8) + size ≤ len := by
  obtain ⟨-, h2, h3⟩ := indexOffset_sound hs hi h
  have := hist_ring hs
  omega

/-- The hypotheses can be met: 4104 zero bytes followed by a reference; the first 2048 bytes are left out. -/
example : ∃ (ops ops1 : List Op) (p w x : List Byte), p.length = 2048 ∧ Expands ops1 (p ++ w) ∧
    Expands (ops1 ++ [.template 0x19 [.index 8 5]]) (p ++ w ++ x) ∧ Expands ops ([] ++ w) ∧ p.length % 2048 = ([] : List Byte).length % 2048 ∧
    p.length + 2048 ≤ 8 * ((p.length + w.length) / 8) ∧ x.length = 8 := by
  have h1 := (bomb_expands 8).1
  have h2 := (bomb_expands 4).1
  have e1 : List.replicate 2048 (0#8) ++ List.replicate 2056 (0#8) = List.replicate (8 + 512 * 8) (0#8) := by
    rw [List.replicate_append_replicate]
  have hd : ((List.replicate (8 + 512 * 8) (0#8)).drop 2088).take 8 = List.replicate 8 (0#8) := by
    rw [List.drop_replicate, List.take_replicate]
    congr 1
  refine ⟨_, _, List.replicate 2048 0#8, List.replicate 2056 0#8, List.replicate 8 0#8, by rw [List.length_replicate], by rw [e1]; exact h1, ⟨?_, ?_⟩, h2,
    by rw [List.length_replicate]; rfl, by rw [List.length_replicate, List.length_replicate]; omega, by rw [List.length_replicate]⟩
  · intro o ho
    rcases List.mem_append.1 ho with ho | ho
    · exact h1.1 o ho
    · simp only [List.mem_singleton] at ho
      subst ho
      refine ⟨by decide, ?_⟩
      intro a ha
      simp only [List.mem_singleton] at ha
      subst ha
      show 5 < 2 ^ indexBits 8
      decide
  · rw [e1]
    refine Lib842.Run.append h1.2 (.cons (.template (.cons ?_ .nil)) .nil)
    rw [← hd]
    exact .index ⟨by decide, by rw [List.length_replicate]; omega, by rw [List.length_replicate]; decide⟩

end Lib842.Props
