import Verif.Proofs.Words
import Verif.Proofs.WorkBound
import Verif.Model.Cuda
/-!
# The CUDA decoder consumes its input
-/

namespace Lib842

/-- The bits that are left to be read, rounded up to the end of the input -/
def CudaP.left (p : CudaP) : Nat := 8 * p.inp.length - 64 * p.word + p.bits

/-- `x` stays within the input and consumes at least `d` bits of it, or is undefined. -/
def Consumes {α : Type} (d : Nat) (x : M CudaP α) : Prop :=
  ∀ p, 64 * p.word ≤ 8 * p.inp.length →
    x p = .ub ∨ ∃ a p', x p = .ok a p' ∧ 64 * p'.word ≤ 8 * p'.inp.length ∧ p'.left + d ≤ p.left

namespace Consumes
variable {α β : Type}

theorem pure (a : α) : Consumes 0 (Pure.pure a : M CudaP α) := fun p h => .inr ⟨a, p, rfl, h, le_rfl⟩

theorem get : Consumes 0 (M.get : M CudaP CudaP) := fun p h => .inr ⟨p, p, rfl, h, le_rfl⟩

theorem access (g : CudaP → Option α) : Consumes 0 (M.access g) := by
  intro p h
  unfold M.access
  cases g p with
  | none => exact .inl rfl
  | some a => exact .inr ⟨a, p, rfl, h, le_rfl⟩

theorem bind {d d' : Nat} {x : M CudaP α} {f : α → M CudaP β} (hx : Consumes d x) (hf : ∀ a, Consumes d' (f a)) : Consumes (d + d') (x >>= f) := by
  intro p h
  rw [M.bind_def]
  rcases hx p h with h1 | ⟨a, p1, h1, h2, h3⟩
  · rw [h1]
    exact .inl rfl
  · rw [h1]
    rcases hf a p1 h2 with h4 | ⟨b, p2, h4, h5, h6⟩
    · exact .inl h4
    · exact .inr ⟨b, p2, h4, h5, by omega⟩

theorem bind0 {d : Nat} {x : M CudaP α} {f : α → M CudaP β} (hx : Consumes d x) (hf : ∀ a, Consumes 0 (f a)) : Consumes 0 (x >>= f) := by
  intro p h
  rcases bind hx hf p h with h1 | ⟨a, p1, h1, h2, h3⟩
  · exact .inl h1
  · exact .inr ⟨a, p1, h1, h2, by omega⟩

theorem ite {d : Nat} {c : Prop} [Decidable c] {x y : M CudaP α} (hx : Consumes d x) (hy : Consumes d y) : Consumes d (if c then x else y) := by
  split
  · exact hx
  · exact hy

end Consumes

theorem consumes_readBits (n : Nat) : Consumes (min n 64) (cudaReadBits n) := by
  intro p h
  unfold cudaReadBits
  rw [M.bind_def]
  simp only [M.get]
  by_cases hb : p.bits < n
  · rw [if_pos hb, M.bind_def]
    unfold M.access
    beta_reduce
    by_cases hl : 8 * p.word + 8 ≤ p.inp.length
    · cases (load64 .little p.inp (8 * p.word)).map swap64 with
      | none => exact .inl rfl
      | some w =>
        refine .inr ⟨_, _, rfl, ?_, ?_⟩
        · simp only
          omega
        · simp only [CudaP.left]
          omega
    · left
      have : load64 .little p.inp (8 * p.word) = none := by
        unfold load64
        rw [readBytes_none hl]
      simp only [this, Option.map_none]
  · rw [if_neg hb]
    refine .inr ⟨_, _, rfl, h, ?_⟩
    simp only [CudaP.left]
    omega

theorem consumes_load (dst o : Nat) : Consumes 0 (cudaLoad dst o) := by
  unfold cudaLoad
  exact .bind (.access _) fun _ => .ite (.bind (.access _) fun _ => .ite (.bind (.access _) fun _ => .bind (.access _) fun _ =>
    .bind (.pure _) fun _ => .pure _) (.bind (.pure _) fun _ => .pure _)) (.bind (.pure _) fun _ => .pure _)

theorem consumes_field (t dst : Nat) (l : BitVec 64 × Nat) : Consumes 0 (cudaField t dst l) := by
  unfold cudaField
  exact .bind0 (consumes_readBits _) fun _ => .ite (.bind .get fun _ => .bind (.access _) fun _ => .bind (consumes_load _ _) fun _ => .pure _)
    (.bind (.pure _) fun _ => .pure _)

theorem consumes_fields : ∀ fs l, Consumes 0 (cudaFields fs l)
  | [], _ => .pure _
  | f :: fs, l => by
    unfold cudaFields
    exact .bind (consumes_field _ _ _) fun _ => consumes_fields fs _

theorem consumes_put (bs : List Byte) : Consumes 0 (cudaPut bs) := by
  intro p h
  unfold cudaPut
  rw [M.bind_def]
  unfold M.update
  cases hw : writeBytes p.buf (8 * p.out) bs with
  | none =>
    left
    simp only [hw, Option.map_none]
  | some m =>
    right
    simp only [hw, Option.map_some]
    exact ⟨_, _, rfl, h, le_rfl⟩

theorem consumes_repeat : ∀ n : Nat, Consumes 0 (cudaRepeat n)
  | 0 => .pure _
  | n + 1 => by
    unfold cudaRepeat
    exact .bind (.access _) fun _ => .bind (consumes_put _) fun _ => consumes_repeat n

theorem consumes_iter : Consumes 5 cudaIter := by
  unfold cudaIter
  exact .bind (d := 5) (d' := 0) (consumes_readBits 5) fun _ => .ite (.bind0 (consumes_readBits _) fun _ => .bind (consumes_repeat _) fun _ => .pure _)
    (.ite (.bind (consumes_put _) fun _ => .pure _) (.ite (.pure _)
    (.bind (.access _) fun _ => .bind (consumes_fields _ _) fun _ => .bind (consumes_put _) fun _ => .pure _)))

theorem cudaLoop_ends : ∀ (fuel : Nat) (p : CudaP), 64 * p.word ≤ 8 * p.inp.length → p.left < 5 * fuel →
    M.doWhile cudaIter fuel p = .ub ∨ ∃ p', M.doWhile cudaIter fuel p = .ok () p'
  | 0, _, _, h => absurd h (by omega)
  | fuel + 1, p, hw, h => by
    rw [M.doWhile, M.bind_def]
    rcases consumes_iter p hw with h1 | ⟨a, p1, h1, h2, h3⟩
    · rw [h1]
      exact .inl rfl
    · rw [h1]
      cases a with
      | true => exact .inr ⟨p1, rfl⟩
      | false => exact cudaLoop_ends fuel p1 h2 (by omega)

end Lib842
