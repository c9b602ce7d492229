import Verif.Proofs.Stale
import Verif.Proofs.Cuda
/-!
# What the old contents of the output buffer cannot change in the CUDA decoder

Two runs on buffers, the second of which is not shorter, go through states that differ only in the buffer; both leave what lies behind the output alone.
-/

namespace Lib842

/-- Outcomes of the same kind, with related values, in related states, or the first one is undefined -/
inductive RelOut {σ α : Type} (R : σ → σ → Prop) (V : α → α → Prop) : Outcome σ α → Outcome σ α → Prop
  | ok {a a' : α} {q q' : σ} : V a a' → R q q' → RelOut R V (.ok a q) (.ok a' q')
  | err {er : Errno} {q q' : σ} : R q q' → RelOut R V (.err er q) (.err er q')
  | ub {y : Outcome σ α} : RelOut R V .ub y
  | timeout : RelOut R V .timeout .timeout

def Rel {σ α : Type} (R : σ → σ → Prop) (V : α → α → Prop) (x x' : M σ α) : Prop := ∀ p p', R p p' → RelOut R V (x p) (x' p')

namespace Rel
variable {σ α β : Type} {R : σ → σ → Prop} {V : α → α → Prop} {W : β → β → Prop}

theorem pure {a a' : α} (h : V a a') : Rel R V (Pure.pure a : M σ α) (Pure.pure a') := fun _ _ hr => .ok h hr

theorem bind {x x' : M σ α} {f f' : α → M σ β} (hx : Rel R V x x') (hf : ∀ a a', V a a' → Rel R W (f a) (f' a')) :
    Rel R W (x >>= f) (x' >>= f') := by
  intro p p' h
  rw [M.bind_def, M.bind_def]
  generalize hy : x p = y, hy' : x' p' = y'
  have := hx p p' h
  rw [hy, hy'] at this
  cases this with
  | ok hv h1 => exact hf _ _ hv _ _ h1
  | err h1 => exact .err h1
  | ub => exact .ub
  | timeout => exact .timeout

theorem get : Rel R R (M.get : M σ σ) M.get := fun _ _ h => .ok h h

theorem access {g g' : σ → Option α} (hg : ∀ p p', R p p' → g p = none ∨ ∃ a a', g p = some a ∧ g' p' = some a' ∧ V a a') :
    Rel R V (M.access g) (M.access g') := by
  intro p p' h
  unfold M.access
  rcases hg p p' h with h1 | ⟨a, a', h1, h2, hv⟩
  · rw [h1]
    exact .ub
  · rw [h1, h2]
    exact .ok hv h

theorem modify {g g' : σ → σ} (hg : ∀ p p', R p p' → R (g p) (g' p')) : Rel R (fun _ _ => True) (M.modify g) (M.modify g') :=
  fun p p' h => .ok trivial (hg p p' h)

theorem ite {c : Prop} [Decidable c] {x x' y y' : M σ α} (hx : Rel R V x x') (hy : Rel R V y y') :
    Rel R V (if c then x else y) (if c then x' else y') := by
  split
  · exact hx
  · exact hy

theorem doWhile {it : M σ Bool} (h : Rel R Eq it it) : ∀ fuel, Rel R (fun _ _ => True) (M.doWhile it fuel) (M.doWhile it fuel)
  | 0 => fun _ _ _ => .timeout
  | fuel + 1 => by
    rw [M.doWhile]
    refine bind h fun a a' ha => ?_
    subst ha
    exact ite (pure trivial) (doWhile h fuel)

end Rel

/-- The states of two runs that started with the buffers `b0` and `b0'` -/
structure CudaR (b0 b0' : List Byte) (p p' : CudaP) : Prop where
  inp : p'.inp = p.inp
  word : p'.word = p.word
  out : p'.out = p.out
  bits : p'.bits = p.bits
  buffer : p'.buffer = p.buffer
  len0 : p.buf.length = b0.length
  len0' : p'.buf.length = b0'.length
  len : p.buf.length ≤ p'.buf.length
  le : 8 * p.out ≤ p.buf.length
  behind : p.buf.drop (8 * p.out) = b0.drop (8 * p.out)
  behind' : p'.buf.drop (8 * p.out) = b0'.drop (8 * p.out)

section
variable {b0 b0' : List Byte}

theorem relc_readBits (n : Nat) : Rel (CudaR b0 b0') Eq (cudaReadBits n) (cudaReadBits n) := by
  unfold cudaReadBits
  refine Rel.bind Rel.get fun p p' h => ?_
  simp only [h.bits, h.buffer]
  refine Rel.ite (Rel.bind (V := Eq) (Rel.access fun q q' hq => ?_) fun w w' hw => ?_) ?_
  · rw [hq.inp, hq.word]
    cases (load64 .little q.inp (8 * q.word)).map swap64 with
    | none => exact .inl rfl
    | some a => exact .inr ⟨a, a, rfl, rfl, rfl⟩
  · subst hw
    exact Rel.bind (Rel.modify fun q q' hq => ⟨hq.inp, congrArg (· + 1) hq.word, hq.out, rfl, rfl, hq.len0, hq.len0', hq.len, hq.le, hq.behind, hq.behind'⟩)
      fun _ _ _ => Rel.pure rfl
  · exact Rel.bind (Rel.modify fun q q' hq => ⟨hq.inp, hq.word, hq.out, rfl, rfl, hq.len0, hq.len0', hq.len, hq.le, hq.behind, hq.behind'⟩)
      fun _ _ _ => Rel.pure rfl

theorem relc_load16 (i : Nat) : Rel (CudaR b0 b0') (fun _ _ => True) (M.access fun p => load16 .little p.buf i)
    (M.access fun p => load16 .little p.buf i) := by
  refine Rel.access fun p p' h => ?_
  have hl := h.len
  by_cases hc : i + 2 ≤ p.buf.length
  · have two : ∀ m : List Byte, i + 2 ≤ m.length → ∃ v, load16 .little m i = some v := by
      intro m hm
      have h2 : ((m.drop i).take 2).length = 2 := by simp; omega
      match hab : (m.drop i).take 2, h2 with
      | [a, b], _ => exact ⟨_, load16_little hab⟩
    obtain ⟨a, ha⟩ := two p.buf hc
    obtain ⟨a', ha'⟩ := two p'.buf (by omega)
    exact .inr ⟨a, a', ha, ha', trivial⟩
  · left
    unfold load16 readBytes
    simp [hc]

theorem relc_load (dst o o' : Nat) (ho : o = o') : Rel (CudaR b0 b0') (fun _ _ => True) (cudaLoad dst o) (cudaLoad dst o') := by
  subst ho
  unfold cudaLoad
  exact .bind (relc_load16 _) fun _ _ _ => .ite (.bind (relc_load16 _) fun _ _ _ => .ite (.bind (relc_load16 _) fun _ _ _ =>
    .bind (relc_load16 _) fun _ _ _ => .bind (V := fun _ _ => True) (.pure trivial) fun _ _ _ => .pure trivial)
    (.bind (V := fun _ _ => True) (.pure trivial) fun _ _ _ => .pure trivial))
    (.bind (V := fun _ _ => True) (.pure trivial) fun _ _ _ => .pure trivial)

theorem relc_field (t dst : Nat) {l l' : BitVec 64 × Nat} (hl : l.2 = l'.2) :
    Rel (CudaR b0 b0') (fun l l' => l.2 = l'.2) (cudaField t dst l) (cudaField t dst l') := by
  unfold cudaField
  rw [hl]
  refine .bind (relc_readBits _) fun v v' hv => ?_
  subst hv
  refine .ite (.bind .get fun p p' hp => .bind (V := Eq) (.access fun _ _ _ => ?_) fun s s' hs => ?_)
    (.bind (V := fun _ _ => True) (.pure trivial) fun _ _ _ => .pure rfl)
  · cases cudaFifoSizes[dst]? with
    | none => exact .inl rfl
    | some a => exact .inr ⟨a, a, rfl, rfl, rfl⟩
  · subst hs
    exact .bind (relc_load _ _ _ (by unfold cudaGetIndex; rw [hp.out])) fun _ _ _ => .pure rfl

theorem relc_fields : ∀ (fs : List (Nat × Nat)) {l l' : BitVec 64 × Nat}, l.2 = l'.2 →
    Rel (CudaR b0 b0') (fun l l' => l.2 = l'.2) (cudaFields fs l) (cudaFields fs l')
  | [], _, _, h => .pure h
  | f :: fs, _, _, h => by
    unfold cudaFields
    exact .bind (relc_field _ _ h) fun _ _ h' => relc_fields fs h'

theorem relc_put {bs bs' : List Byte} (h8 : bs.length = 8) (h8' : bs'.length = 8) :
    Rel (CudaR b0 b0') (fun _ _ => True) (cudaPut bs) (cudaPut bs') := by
  intro p p' h
  have e : ∀ (q : CudaP) (c : List Byte), cudaPut c q = match writeBytes q.buf (8 * q.out) c with
      | none => .ub
      | some m => .ok () { q with buf := m, out := q.out + 1 } := by
    intro q c
    unfold cudaPut
    rw [M.bind_def]
    unfold M.update
    cases hw : writeBytes q.buf (8 * q.out) c <;> simp only [hw, Option.map_none, Option.map_some] <;> rfl
  rw [e, e, h.out]
  by_cases hc : 8 * p.out + 8 ≤ p.buf.length
  · rw [writeBytes_ok (by omega), writeBytes_ok (by have := h.len; omega)]
    have hle := h.le
    have hl := h.len
    have key : ∀ m c : List Byte, c.length = 8 → 8 * p.out + 8 ≤ m.length →
        (m.take (8 * p.out) ++ c ++ m.drop (8 * p.out + c.length)).drop (8 * (p.out + 1)) = (m.drop (8 * p.out)).drop 8 := by
      intro m c hc hm
      rw [List.drop_append, List.drop_of_length_le (by simp; omega), List.nil_append, List.drop_drop, List.drop_drop]
      congr 1
      simp
      omega
    refine .ok trivial ⟨h.inp, h.word, rfl, h.bits, h.buffer, ?_, ?_, ?_, ?_, ?_, ?_⟩
    · have := h.len0
      simp
      omega
    · have := h.len0'
      simp
      omega
    · simp
      omega
    · simp
      omega
    · show List.drop (8 * (p.out + 1)) _ = List.drop (8 * (p.out + 1)) _
      rw [key _ _ h8 hc, h.behind, List.drop_drop, Nat.mul_add]
    · show List.drop (8 * (p.out + 1)) _ = List.drop (8 * (p.out + 1)) _
      rw [key _ _ h8' (by omega), h.behind', List.drop_drop, Nat.mul_add]
  · unfold writeBytes
    rw [if_neg (by omega)]
    exact .ub

theorem relc_repeat : ∀ n : Nat, Rel (CudaR b0 b0') (fun _ _ => True) (cudaRepeat n) (cudaRepeat n)
  | 0 => .pure trivial
  | n + 1 => by
    unfold cudaRepeat
    refine .bind (V := fun a a' => a.length = 8 ∧ a'.length = 8) (.access fun p p' h => ?_)
      fun _ _ hv => .bind (relc_put hv.1 hv.2) fun _ _ _ => relc_repeat n
    rw [h.out]
    split
    · exact .inl rfl
    · unfold readBytes
      have hle := h.le
      have hl := h.len
      rw [if_pos (by omega), if_pos (by omega)]
      exact .inr ⟨_, _, rfl, rfl, by simp; omega, by simp; omega⟩

theorem relc_iter : Rel (CudaR b0 b0') Eq cudaIter cudaIter := by
  unfold cudaIter
  refine .bind (relc_readBits _) fun v v' hv => ?_
  subst hv
  refine .ite (.bind (relc_readBits _) fun r r' hr => ?_) (.ite (.bind (relc_put (by simp) (by simp)) fun _ _ _ => .pure rfl)
    (.ite (.pure rfl) (.bind (V := Eq) (.access fun _ _ _ => ?_) fun row row' hrow => ?_)))
  · subst hr
    exact .bind (relc_repeat _) fun _ _ _ => .pure rfl
  · cases cudaTemplates[v.toNat]? with
    | none => exact .inl rfl
    | some a => exact .inr ⟨a, a, rfl, rfl, rfl⟩
  · subst hrow
    exact .bind (relc_fields _ rfl) fun _ _ _ => .bind (relc_put (length_wordBytes64 _ _) (length_wordBytes64 _ _)) fun _ _ _ => .pure rfl

end

theorem cuda_stale {inp b0 b : List Byte} (h0 : cudaThread inp b0 = some b) :
    ∃ n, 8 * n ≤ b0.length ∧ ∀ b0' : List Byte, b0.length ≤ b0'.length →
        ∃ b', cudaThread inp b0' = some b' ∧ b'.length = b0'.length ∧ b'.drop (8 * n) = b0'.drop (8 * n) := by
  have h : ∀ b0' : List Byte, b0.length ≤ b0'.length → RelOut (CudaR b0 b0') (fun _ _ => True)
      (M.doWhile cudaIter (8 * inp.length + 1) { inp := inp, word := 0, buf := b0, out := 0, bits := 0, buffer := 0#64 })
      (M.doWhile cudaIter (8 * inp.length + 1) { inp := inp, word := 0, buf := b0', out := 0, bits := 0, buffer := 0#64 }) := fun b0' hl =>
    Rel.doWhile (relc_iter (b0 := b0) (b0' := b0')) (8 * inp.length + 1) _ _ ⟨rfl, rfl, rfl, rfl, rfl, rfl, rfl, hl, Nat.zero_le _, rfl, rfl⟩
  unfold cudaThread at h0 ⊢
  generalize M.doWhile cudaIter (8 * inp.length + 1) { inp := inp, word := 0, buf := b0, out := 0, bits := 0, buffer := 0#64 } = r at h h0
  cases r with
  | ok _ q =>
    have hq := h b0 le_rfl
    refine ⟨q.out, ?_, fun b0' hl => ?_⟩
    · generalize M.doWhile cudaIter (8 * inp.length + 1) { inp := inp, word := 0, buf := b0, out := 0, bits := 0, buffer := 0#64 } = r' at hq
      cases hq with
      | ok _ hq => exact hq.len0 ▸ hq.le
    · have hq := h b0' hl
      generalize M.doWhile cudaIter (8 * inp.length + 1) { inp := inp, word := 0, buf := b0', out := 0, bits := 0, buffer := 0#64 } = r' at hq
      cases hq with
      | ok _ hq => exact ⟨_, rfl, hq.len0', hq.behind'⟩
  | err _ _ | ub | timeout => cases h0

end Lib842
