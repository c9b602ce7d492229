import Verif.Proofs.Prefix
import Verif.Proofs.Cuda
/-!
# The CUDA decoder never changes output it has already produced
-/

namespace Lib842
open Spec

abbrev CudaKeeps {α : Type} (x : M CudaP α) : Prop := Keeps CudaP.buf (fun p => 8 * p.out) x

theorem keeps_cudaReadBits (n : Nat) : CudaKeeps (cudaReadBits n) := by
  unfold cudaReadBits
  exact .bind .get fun _ => .ite (.bind (.access _) fun _ => .bind (.modify (fun _ => rfl) fun _ => rfl) fun _ => .pure _)
    (.bind (.modify (fun _ => rfl) fun _ => rfl) fun _ => .pure _)

theorem keeps_cudaLoad (dst offset : Nat) : CudaKeeps (cudaLoad dst offset) := by
  unfold cudaLoad
  exact .bind (.access _) fun _ => .ite (.bind (.access _) fun _ => .ite (.bind (.access _) fun _ => .bind (.access _) fun _ =>
    .bind (.pure _) fun _ => .pure _) (.bind (.pure _) fun _ => .pure _)) (.bind (.pure _) fun _ => .pure _)

theorem keeps_cudaField (t dst : Nat) (l : BitVec 64 × Nat) : CudaKeeps (cudaField t dst l) := by
  unfold cudaField
  exact .bind (keeps_cudaReadBits _) fun _ => .ite (.bind .get fun _ => .bind (.access _) fun _ => .bind (keeps_cudaLoad _ _) fun _ => .pure _)
    (.bind (.pure _) fun _ => .pure _)

theorem keeps_cudaFields : ∀ fs l, CudaKeeps (cudaFields fs l)
  | [], _ => .pure _
  | f :: fs, l => by
    unfold cudaFields
    exact .bind (keeps_cudaField _ _ _) fun _ => keeps_cudaFields fs _

theorem keeps_cudaPut (bs : List Byte) : CudaKeeps (cudaPut bs) := by
  unfold cudaPut
  refine .bind (.write fun p p' h => ?_) fun _ => fun p =>
    ⟨fun _ _ h => by cases h; exact ⟨Nat.mul_le_mul_left 8 (Nat.le_add_right ..), rfl⟩, fun _ _ h => by cases h⟩
  cases hw : writeBytes p.buf (8 * p.out) bs with
  | none => rw [hw] at h; cases h
  | some m => rw [hw] at h; cases h; exact ⟨Nat.le_refl _, writeBytes_take hw⟩

theorem keeps_cudaRepeat : ∀ n : Nat, CudaKeeps (cudaRepeat n)
  | 0 => .pure _
  | n + 1 => by
    unfold cudaRepeat
    exact .bind (.access _) fun _ => .bind (keeps_cudaPut _) fun _ => keeps_cudaRepeat n

theorem keeps_cudaIter : CudaKeeps cudaIter := by
  unfold cudaIter
  exact .bind (keeps_cudaReadBits _) fun _ =>
    .ite (.bind (keeps_cudaReadBits _) fun _ => .bind (keeps_cudaRepeat _) fun _ => .pure _)
    (.ite (.bind (keeps_cudaPut _) fun _ => .pure _)
    (.ite (.pure _)
    (.bind (.access _) fun _ => .bind (keeps_cudaFields _ _) fun _ => .bind (keeps_cudaPut _) fun _ => .pure _)))

/-- The ops at the start of the input, whatever follows them. -/
theorem cudaLoop_run {ops : List Op} (hval : ∀ op ∈ ops, op.Valid) (hsh : ∀ op ∈ ops, op.isShort = false)
    {p : CudaP} (hw : WinOk p.buffer p.bits) (hol : 8 * p.out ≤ p.buf.length) {R : List Bool}
    (hr : p.rest = ops.flatMap Op.bits ++ R) {data : List Byte}
    (hrun : Run p.outp ops data) (hfit : data.length ≤ p.buf.length) (fuel : Nat) :
    ∃ p', M.doWhile cudaIter (fuel + ops.length) p = M.doWhile cudaIter fuel p' ∧ COut p p' data := by
  induction ops generalizing p with
  | nil =>
    cases hrun
    exact ⟨p, rfl, COut.same hol ⟨rfl, rfl⟩⟩
  | cons op ops ih =>
    cases hrun with
    | @cons _ _ o _ _ h1 h2 =>
      have hle := h2.length_le
      rw [List.flatMap_cons, List.append_assoc] at hr
      obtain ⟨p1, hi, ho1, hr1, hw1⟩ := cudaIter_op hw hol (hval op List.mem_cons_self)
        (hsh op List.mem_cons_self) hr h1 (by omega)
      have hb := ho1.length (by omega)
      have hl := ho1.len
      obtain ⟨p2, h3, ho2⟩ := ih (fun x hx => hval x (List.mem_cons_of_mem _ hx))
        (fun x hx => hsh x (List.mem_cons_of_mem _ hx)) hw1 (by omega) hr1 (by rw [ho1.outp]; exact h2)
        (by omega)
      refine ⟨p2, ?_, ho1.trans ho2 (by omega)⟩
      rw [List.length_cons, ← Nat.add_assoc, M.doWhile, M.bind_ok hi]
      exact h3

theorem cuda_prefix {inp buf : List Byte} {ops : List Op} {o : List Byte} {R : List Bool} (hx : Expands ops o)
    (hsh : ∀ op ∈ ops, op.isShort = false) (hb : bytesBits (inp.take (8 * (inp.length / 8))) = ops.flatMap Op.bits ++ R)
    (hd : o.length ≤ buf.length) {b : List Byte} (h : cudaThread inp buf = some b) : b.take o.length = o := by
  have hlen := length_flatMap_bits ops
  have hbl := congrArg List.length hb
  rw [List.length_append, length_bytesBits, List.length_take] at hbl
  obtain ⟨f, hf⟩ : ∃ f, 8 * inp.length + 1 = f + ops.length := ⟨8 * inp.length + 1 - ops.length, by omega⟩
  obtain ⟨p1, h1, ho⟩ := cudaLoop_run hx.1 hsh
    (p := { inp := inp, word := 0, buf := buf, out := 0, bits := 0, buffer := 0#64 }) ⟨0, Win.zero⟩
    (by simp) (R := R) (by rw [← hb]; simp [CudaP.rest, winBits]) (by simpa [CudaP.outp] using hx.2) hd f
  unfold cudaThread at h
  rw [hf, h1] at h
  split at h
  · rename_i p hm
    cases h
    have := ((Keeps.doWhile keeps_cudaIter f p1).1 _ _ hm).2
    simp only [ho.len] at this
    rw [this, ho.buf, List.take_left]
  · cases h

end Lib842
