import Verif.Proofs.CrcModel
import Verif.Proofs.Tail
import Verif.Model.OptDecomp
import Verif.Proofs.Ocl
/-!
# The decompressors do not look at what was in the output buffer

Two runs on buffers of the same length go through states that differ only in the bytes not written yet.
-/

namespace Lib842
open Spec

/-! ## Pairs of runs -/

/-- Outcomes of the same kind, with the same value, in related states -/
inductive StaleOut {σ α : Type} (R : σ → σ → Prop) : Outcome σ α → Outcome σ α → Prop
  | ok {a : α} {q q' : σ} : R q q' → StaleOut R (.ok a q) (.ok a q')
  | err {er : Errno} {q q' : σ} : R q q' → StaleOut R (.err er q) (.err er q')
  | ub : StaleOut R .ub .ub
  | timeout : StaleOut R .timeout .timeout

def Stale {σ α : Type} (R : σ → σ → Prop) (x : M σ α) : Prop := ∀ p p', R p p' → StaleOut R (x p) (x p')

namespace Stale
variable {σ α β : Type} {R R' : σ → σ → Prop}

theorem pure (a : α) : Stale R (Pure.pure a : M σ α) := fun _ _ h => .ok h

theorem fail (er : Errno) : Stale R (M.fail er : M σ α) := fun _ _ h => .err h

theorem ub : Stale R (M.ub : M σ α) := fun _ _ _ => .ub

theorem timeout : Stale R (M.timeout : M σ α) := fun _ _ _ => .timeout

theorem bind {x : M σ α} {f : α → M σ β} (hx : Stale R x) (hf : ∀ a, Stale R (f a)) : Stale R (x >>= f) := by
  intro p p' h
  rw [M.bind_def, M.bind_def]
  generalize hy : x p = y, hy' : x p' = y'
  have := hx p p' h
  rw [hy, hy'] at this
  cases this with
  | ok h1 => exact hf _ _ _ h1
  | err h1 => exact .err h1
  | ub => exact .ub
  | timeout => exact .timeout

theorem access {g : σ → Option α} (hg : ∀ p p', R p p' → g p = g p') : Stale R (M.access g) := by
  intro p p' h
  unfold M.access
  rw [← hg p p' h]
  cases g p with
  | none => exact .ub
  | some a => exact .ok h

theorem modify {g : σ → σ} (hg : ∀ p p', R p p' → R (g p) (g p')) : Stale R (M.modify g) :=
  fun p p' h => .ok (hg p p' h)

theorem ite {c : Prop} [Decidable c] {x y : M σ α} (hx : Stale R x) (hy : Stale R y) : Stale R (if c then x else y) := by
  split
  · exact hx
  · exact hy

theorem doWhile {it : M σ Bool} (h : Stale R it) : ∀ fuel, Stale R (M.doWhile it fuel)
  | 0 => timeout
  | fuel + 1 => by
    rw [M.doWhile]
    exact bind h fun _ => ite (pure _) (doWhile h fuel)

end Stale

theorem StaleOut.mono {σ α : Type} {R R' : σ → σ → Prop} (h : ∀ p p', R p p' → R' p p') {x y : Outcome σ α}
    (hx : StaleOut R x y) : StaleOut R' x y := by
  cases hx with
  | ok h1 => exact .ok (h _ _ h1)
  | err h1 => exact .err (h _ _ h1)
  | ub => exact .ub
  | timeout => exact .timeout

/-! ## Buffers with the same first `n` bytes, the others being the initial ones -/

def StaleBuf (b0 b0' b b' : List Byte) (n : Nat) : Prop :=
  ∃ w : List Byte, w.length = n ∧ n ≤ b0.length ∧ b0.length = b0'.length ∧ b = w ++ b0.drop n ∧ b' = w ++ b0'.drop n

namespace StaleBuf
variable {b0 b0' b b' : List Byte} {n : Nat}

theorem len (h : StaleBuf b0 b0' b b' n) : b.length = b'.length := by
  obtain ⟨w, h1, h2, h3, rfl, rfl⟩ := h
  simp [h3]

theorem len0 (h : StaleBuf b0 b0' b b' n) : b.length = b0.length ∧ n ≤ b0.length := by
  obtain ⟨w, h1, h2, h3, rfl, rfl⟩ := h
  refine ⟨?_, h2⟩
  simp
  omega

theorem take (h : StaleBuf b0 b0' b b' n) {k : Nat} (hk : k ≤ n) : b.take k = b'.take k := by
  obtain ⟨w, h1, h2, h3, rfl, rfl⟩ := h
  rw [List.take_append_of_le_length (by omega), List.take_append_of_le_length (by omega)]

theorem read (h : StaleBuf b0 b0' b b' n) {i k : Nat} (hk : i + k ≤ n) : readBytes b i k = readBytes b' i k := by
  unfold readBytes
  rw [h.len]
  have : (b.drop i).take k = (b'.drop i).take k := by
    rw [List.take_drop, List.take_drop, h.take (by omega)]
  rw [this]

theorem write (h : StaleBuf b0 b0' b b' n) (bs : List Byte) :
    (writeBytes b n bs = none ∧ writeBytes b' n bs = none) ∨
      ∃ c c', writeBytes b n bs = some c ∧ writeBytes b' n bs = some c' ∧ StaleBuf b0 b0' c c' (n + bs.length) := by
  have hl := h.len
  have hl0 := h.len0
  by_cases hc : n + bs.length ≤ b.length
  · right
    refine ⟨_, _, writeBytes_ok hc, writeBytes_ok (by omega), ?_⟩
    obtain ⟨w, h1, h2, h3, rfl, rfl⟩ := h
    refine ⟨w ++ bs, by simp [h1], by omega, h3, ?_, ?_⟩
    · rw [List.take_append_of_le_length (by omega), List.take_of_length_le (by omega), List.drop_append,
        List.drop_of_length_le (by omega), List.nil_append, List.drop_drop]
      congr 2
      omega
    · rw [List.take_append_of_le_length (by omega), List.take_of_length_le (by omega), List.drop_append,
        List.drop_of_length_le (by omega), List.nil_append, List.drop_drop]
      congr 2
      omega
  · left
    unfold writeBytes
    rw [if_neg hc, if_neg (by omega)]
    exact ⟨rfl, rfl⟩

theorem crc (h : StaleBuf b0 b0' b b' n) (e : Endian) (addr : Nat) :
    crc32be e addr 0#32 b n = crc32be e addr 0#32 b' n := by
  have h1 := h.len0
  have h2 := h.len
  rw [crc32be_eq e addr b n (by omega), crc32be_eq e addr b' n (by omega), h.take le_rfl]

theorem init (hl : b0.length = b0'.length) : StaleBuf b0 b0' b0 b0' 0 :=
  ⟨[], rfl, by omega, hl, rfl, rfl⟩

theorem same (h : StaleBuf b0 b0' b b' n) : ∃ w : List Byte, w.length = n ∧ n ≤ b0.length ∧ b = w ++ b0.drop w.length ∧ b' = w ++ b0'.drop w.length := by
  obtain ⟨w, h1, h2, h3, h4, h5⟩ := h
  exact ⟨w, h1, h2, by rw [h1]; exact h4, by rw [h1]; exact h5⟩

end StaleBuf

theorem roundDown_le (n k : Nat) : roundDown n k ≤ n := by
  unfold roundDown
  omega

/-! ## The serial decompressor -/

/-- Related states of the serial decompressor; at least `lo` bytes have been written. -/
def SwR (b0 b0' : List Byte) (lo : Nat) (p p' : Decomp) : Prop :=
  p' = { p with buf := p'.buf } ∧ StaleBuf b0 b0' p.buf p'.buf p.out ∧ p.out + p.olen = b0.length ∧ lo ≤ p.out

section Sw
variable {b0 b0' : List Byte} {lo : Nat} {α : Type}

theorem SwR.mono {lo' : Nat} (h : lo ≤ lo') {p p' : Decomp} (hp : SwR b0 b0' lo' p p') : SwR b0 b0' lo p p' :=
  ⟨hp.1, hp.2.1, hp.2.2.1, by have := hp.2.2.2; omega⟩

theorem sw_get {f : Decomp → M Decomp α} (h1 : ∀ s b, f { s with buf := b } = f s)
    (h2 : ∀ s : Decomp, lo ≤ s.out → Stale (SwR b0 b0' s.out) (f s)) : Stale (SwR b0 b0' lo) (M.get >>= f) := by
  intro p p' h
  show StaleOut _ (f p p) (f p' p')
  have : f p' = f p := by
    have := h1 p p'.buf
    rw [← h.1] at this
    exact this
  rw [this]
  exact (h2 p h.2.2.2 p p' ⟨h.1, h.2.1, h.2.2.1, le_rfl⟩).mono fun _ _ => SwR.mono h.2.2.2

theorem sw_access {g : Decomp → Option α} (hg : ∀ s b, g { s with buf := b } = g s) : Stale (SwR b0 b0' lo) (M.access g) :=
  Stale.access fun p p' h => by
    have := hg p p'.buf
    rw [← h.1] at this
    exact this.symm

theorem sw_modify {g : Decomp → Decomp} (hg : ∀ s b, g { s with buf := b } = { g s with buf := b })
    (ho : ∀ s, (g s).out = s.out ∧ (g s).olen = s.olen ∧ (g s).buf = s.buf) : Stale (SwR b0 b0' lo) (M.modify g) :=
  Stale.modify fun p p' h => by
    have h1 := hg p p'.buf
    rw [← h.1] at h1
    have h2 := ho p
    refine ⟨?_, ?_, ?_, ?_⟩
    · rw [h1]
    · rw [h1, h2.2.2, h2.1]
      exact h.2.1
    · rw [h2.1, h2.2.1]
      exact h.2.2.1
    · rw [h2.1]
      exact h.2.2.2

theorem sw_emit (bs : List Byte) : Stale (SwR b0 b0' lo) (emit bs) := by
  intro p p' h
  obtain ⟨h1, h2, h3, h4⟩ := h
  unfold emit
  rw [M.bind_def, M.bind_def]
  have hw : writeBytes p'.buf p'.out bs = writeBytes p'.buf p.out bs := by rw [h1]
  rcases h2.write bs with ⟨ha, hb⟩ | ⟨c, c', ha, hb, hc⟩
  · simp only [M.update, ha, hw, hb, Option.map_none]
    exact .ub
  · simp only [M.update, ha, hw, hb, Option.map_some, M.modify]
    refine .ok ⟨?_, hc, ?_, ?_⟩
    · rw [h1]
    · have := hc.len0.2
      show p.out + bs.length + (p.olen - bs.length) = b0.length
      omega
    · show lo ≤ p.out + bs.length
      omega

theorem sw_nextBitsF (e : Endian) : ∀ (fuel n : Nat) (lo : Nat), Stale (SwR b0 b0' lo) (nextBitsF e fuel n)
  | 0, _, _ => Stale.timeout
  | fuel + 1, n, lo => by
    unfold nextBitsF
    refine sw_get (fun _ _ => rfl) fun s hs => ?_
    have hsplit : ∀ k, Stale (SwR b0 b0' s.out) (splitNextBits (nextBitsF e fuel) n k) := fun k => by
      unfold splitNextBits
      exact Stale.ite (Stale.fail _) (Stale.bind (sw_nextBitsF e fuel _ _) fun _ => Stale.bind (sw_nextBitsF e fuel _ _) fun _ => Stale.pure _)
    refine Stale.ite (Stale.fail _) (Stale.ite (hsplit _) (Stale.ite (hsplit _) (Stale.ite (hsplit _) (Stale.ite (Stale.fail _) ?_))))
    refine Stale.bind (sw_access fun _ _ => rfl) fun _ => Stale.bind (sw_modify ?_ ?_) fun _ => Stale.pure _
    · intro s b
      dsimp only
      split <;> rfl
    · intro s
      dsimp only
      split <;> exact ⟨rfl, rfl, rfl⟩

theorem sw_nextBits (e : Endian) (n : Nat) : Stale (SwR b0 b0' lo) (nextBits e n) := sw_nextBitsF e _ _ _

theorem sw_doData (e : Endian) (n : Nat) : Stale (SwR b0 b0' lo) (doData e n) := by
  unfold doData
  refine sw_get (fun _ _ => rfl) fun s _ => Stale.ite (Stale.fail _) (Stale.bind (sw_nextBits e _) fun v => ?_)
  exact Stale.ite (sw_emit _) (Stale.ite (sw_emit _) (Stale.ite (sw_emit _) (Stale.fail _)))

theorem sw_read {k n : Nat} (h : k + n ≤ lo) : Stale (SwR b0 b0' lo) (M.access fun p : Decomp => readBytes p.buf k n) :=
  Stale.access fun p p' hp => hp.2.1.read (by have := hp.2.2.2; omega)

theorem sw_doIndexN (e : Endian) (size bits fsize : Nat) : Stale (SwR b0 b0' lo) (doIndexN e size bits fsize) := by
  unfold doIndexN
  refine sw_get (fun _ _ => rfl) fun s _ => Stale.bind (sw_nextBits e _) fun index => ?_
  dsimp only
  split
  · exact Stale.fail _
  · rename_i hc
    refine sw_get (fun _ _ => rfl) fun s2 h2 => Stale.ite (Stale.fail _) (Stale.bind (sw_read ?_) fun _ => sw_emit _)
    have := roundDown_le s.out 8
    omega

theorem sw_doIndex (e : Endian) (n : Nat) : Stale (SwR b0 b0' lo) (doIndex e n) :=
  Stale.ite (sw_doIndexN e _ _ _) (Stale.ite (sw_doIndexN e _ _ _) (Stale.ite (sw_doIndexN e _ _ _) (Stale.fail _)))

theorem sw_doActions (e : Endian) : ∀ l : List Nat, Stale (SwR b0 b0' lo) (doActions e l)
  | [] => Stale.pure _
  | op :: ops => by
    unfold doActions
    have ih := sw_doActions e ops
    exact .ite (.bind (sw_doData e _) fun _ => ih) (.ite (.bind (sw_doIndex e _) fun _ => ih) (.ite ih (.bind (.fail _) fun _ => ih)))

theorem sw_doRepeat : ∀ n : Nat, Stale (SwR b0 b0' lo) (doRepeat n)
  | 0 => Stale.pure _
  | n + 1 => by
    unfold doRepeat
    refine Stale.bind (Stale.access fun p p' h => ?_) fun bs => Stale.bind (sw_emit bs) fun _ => sw_doRepeat n
    have ho : p'.out = p.out := by rw [h.1]
    rw [ho]
    by_cases hc : p.out < 8
    · rw [if_pos hc, if_pos hc]
    · rw [if_neg hc, if_neg hc]
      exact h.2.1.read (by omega)

theorem sw_doShort (e : Endian) : ∀ n : Nat, Stale (SwR b0 b0' lo) (doShort e n)
  | 0 => Stale.pure _
  | n + 1 => by
    unfold doShort
    exact Stale.bind (sw_nextBits e _) fun _ => Stale.bind (sw_emit _) fun _ => sw_doShort e n

theorem sw_decompOp (e : Endian) (op : Nat) : Stale (SwR b0 b0' lo) (decompOp e op) := by
  unfold decompOp
  refine Stale.ite ?_ (Stale.ite ?_ (Stale.ite ?_ ?_))
  · exact Stale.bind (sw_nextBits e _) fun _ => sw_get (fun _ _ => rfl) fun _ _ =>
      Stale.ite (Stale.fail _) (Stale.ite (Stale.fail _) (sw_doRepeat _))
  · exact sw_get (fun _ _ => rfl) fun _ _ => Stale.ite (Stale.fail _) (sw_emit _)
  · exact Stale.bind (sw_nextBits e _) fun _ => Stale.ite (Stale.fail _) (sw_get (fun _ _ => rfl) fun _ _ =>
      Stale.ite (Stale.fail _) (sw_doShort e _))
  · unfold doOp
    exact Stale.ite (Stale.fail _) (Stale.bind (sw_access fun _ _ => rfl) fun _ => sw_doActions e _)

theorem sw_decompLoop (e : Endian) : ∀ fuel : Nat, Stale (SwR b0 b0' lo) (decompLoop e fuel)
  | 0 => Stale.timeout
  | fuel + 1 => by
    unfold decompLoop
    exact Stale.bind (sw_nextBits e _) fun _ => Stale.ite (Stale.pure _)
      (Stale.bind (sw_decompOp e _) fun _ => sw_decompLoop e fuel)

theorem sw_decompBody (e : Endian) (addr fuel : Nat) :
    Stale (SwR b0 b0' lo) (decompBody e addr fuel b0.length) := by
  unfold decompBody
  refine Stale.bind (sw_decompLoop e _) fun _ => Stale.bind (sw_nextBits e _) fun _ => sw_get (fun _ _ => rfl) fun s _ => ?_
  refine Stale.bind (Stale.access fun p p' h => ?_) fun _ => Stale.ite (Stale.fail _) (Stale.ite (Stale.fail _) (Stale.pure _))
  have h1 : p'.olen = p.olen := by rw [h.1]
  have h2 : b0.length - p.olen = p.out := by have := h.2.2.1; omega
  rw [h1, h2]
  exact h.2.1.crc e addr

theorem decompBody_len {e : Endian} {addr fuel total n : Nat} {p q : Decomp} (hm : decompBody e addr fuel total p = .ok n q) :
    n = total - q.olen := by
  unfold decompBody at hm
  rw [M.bind_def] at hm
  split at hm <;> try cases hm
  rw [M.bind_def] at hm
  split at hm <;> try cases hm
  rw [M.get_bind_apply, M.bind_def] at hm
  unfold M.access at hm
  split at hm <;> try cases hm
  rename_i heq
  split at heq <;> cases heq
  split at hm
  · cases hm
  split at hm
  · cases hm
  cases hm
  rfl

end Sw

/-- All the calls end in the same way, having written the same bytes `w`. -/
def StaleCalls (k : Nat) (c : List Byte → Call) : Prop :=
  (∀ b : List Byte, b.length = k → c b = .ub) ∨ (∀ b : List Byte, b.length = k → c b = .timeout) ∨
    ∃ (r : Option Errno) (n : Nat) (w : List Byte), w.length ≤ k ∧ (r = none → n = w.length) ∧
      ∀ b : List Byte, b.length = k → c b = .ret r n (w ++ b.drop w.length)

theorem StaleCalls.of_out {σ : Type} {R : List Byte → σ → σ → Prop} {k : Nat} {buf : σ → List Byte} {len : σ → Nat} {x : Outcome σ Nat}
    {y : List Byte → Outcome σ Nat}
    (F : Outcome σ Nat → Call) (f1 : ∀ n p, F (.ok n p) = .ret none n (buf p)) (f2 : ∀ er p, F (.err er p) = .ret (some er) 0 (buf p))
    (f3 : F .ub = .ub) (f4 : F .timeout = .timeout)
    (h : ∀ b : List Byte, b.length = k → StaleOut (R b) x (y b))
    (hR : ∀ b : List Byte, b.length = k → ∀ p p', R b p p' → StaleBuf (List.replicate k 0) b (buf p) (buf p') (len p))
    (hn : ∀ n p, x = .ok n p → ∀ b p', R b p p' → n = len p) : StaleCalls k fun b => F (y b) := by
  have key : ∀ p p' (b : List Byte), b.length = k → R b p p' →
      len p ≤ k ∧ ((buf p).take (len p)).length = len p ∧ buf p' = (buf p).take (len p) ++ b.drop ((buf p).take (len p)).length := by
    intro p p' b hb hp
    obtain ⟨w, h2, h3, h4, h5⟩ := (hR b hb _ _ hp).same
    have h6 : (buf p).take (len p) = w := by rw [h4, ← h2, List.take_left]
    rw [List.length_replicate] at h3
    rw [h6]
    exact ⟨h3, h2, h5⟩
  cases x with
  | ub =>
    refine .inl fun b hb => ?_
    have := h b hb
    show F (y b) = _
    generalize y b = z at this ⊢
    cases this
    exact f3
  | timeout =>
    refine .inr (.inl fun b hb => ?_)
    have := h b hb
    show F (y b) = _
    generalize y b = z at this ⊢
    cases this
    exact f4
  | ok n p =>
    have hr : ∀ b : List Byte, b.length = k → ∃ p', y b = .ok n p' ∧ R b p p' := fun b hb => by
      have := h b hb
      generalize y b = z at this
      cases this with
      | ok h1 => exact ⟨_, rfl, h1⟩
    obtain ⟨p1, _, hp1⟩ := hr (List.replicate k 0) (by simp)
    have h1 := key p p1 _ (by simp) hp1
    refine .inr (.inr ⟨none, n, (buf p).take (len p), by omega, fun _ => ?_, fun b hb => ?_⟩)
    · rw [h1.2.1]
      exact hn _ _ rfl _ _ hp1
    · obtain ⟨p', hy, hp'⟩ := hr b hb
      show F (y b) = _
      rw [hy, f1, ← (key p p' b hb hp').2.2]
  | err er p =>
    have hr : ∀ b : List Byte, b.length = k → ∃ p', y b = .err er p' ∧ R b p p' := fun b hb => by
      have := h b hb
      generalize y b = z at this
      cases this with
      | err h1 => exact ⟨_, rfl, h1⟩
    obtain ⟨p1, _, hp1⟩ := hr (List.replicate k 0) (by simp)
    have h1 := key p p1 _ (by simp) hp1
    refine .inr (.inr ⟨some er, 0, (buf p).take (len p), by omega, fun h => (by cases h), fun b hb => ?_⟩)
    obtain ⟨p', hy, hp'⟩ := hr b hb
    show F (y b) = _
    rw [hy, f2, ← (key p p' b hb hp').2.2]

def swCall : Outcome Decomp Nat → Call
  | .ok n p => .ret none n p.buf
  | .err er p => .ret (some er) 0 p.buf
  | .ub => .ub
  | .timeout => .timeout

theorem sw_stale (e : Endian) (addr fuel : Nat) (inp : List Byte) (k : Nat) :
    StaleCalls k fun b => sw842DecompressF fuel e addr inp b := by
  have h0 : ∀ b : List Byte, b.length = k → SwR (List.replicate k 0) b 0 (decompInit inp (List.replicate k 0)) (decompInit inp b) := fun b hb =>
    ⟨by simp [decompInit, hb], StaleBuf.init (by simp [hb]), by simp [decompInit], Nat.zero_le _⟩
  have hc : StaleCalls k fun b => swCall (decompBody e addr fuel (List.replicate k (0 : Byte)).length (decompInit inp b)) := by
    refine StaleCalls.of_out (len := fun p => p.out) (R := fun b => SwR (List.replicate k 0) b 0) (y := fun b => decompBody e addr fuel (List.replicate k (0 : Byte)).length (decompInit inp b)) swCall (fun _ _ => rfl) (fun _ _ => rfl) rfl rfl
      (fun b hb => sw_decompBody e addr fuel _ _ (h0 b hb)) (fun _ _ _ _ hp => hp.2.1) fun n p hx b p' hp => ?_
    have := decompBody_len hx
    have := hp.2.2.1
    omega
  rw [List.length_replicate] at hc
  rcases hc with h | h | ⟨r, n, w, h1, h2, h3⟩
  · exact .inl fun b hb => by have := h b hb; rw [← hb] at this; exact this
  · exact .inr (.inl fun b hb => by have := h b hb; rw [← hb] at this; exact this)
  · exact .inr (.inr ⟨r, n, w, h1, h2, fun b hb => by have := h3 b hb; rw [← hb] at this; exact this⟩)

/-! ## The optimised decompressor -/

/-- Related states of the optimised decompressor -/
def OptR (b0 b0' : List Byte) (lo : Nat) (p p' : ODecomp) : Prop :=
  p' = { p with buf := p'.buf } ∧ StaleBuf b0 b0' p.buf p'.buf p.out ∧ lo ≤ p.out

section Opt
variable {b0 b0' : List Byte} {lo : Nat} {α : Type}

theorem OptR.mono {lo' : Nat} (h : lo ≤ lo') {p p' : ODecomp} (hp : OptR b0 b0' lo' p p') : OptR b0 b0' lo p p' :=
  ⟨hp.1, hp.2.1, by have := hp.2.2; omega⟩

theorem opt_get {f : ODecomp → M ODecomp α} (h1 : ∀ s b, f { s with buf := b } = f s)
    (h2 : ∀ s : ODecomp, lo ≤ s.out → Stale (OptR b0 b0' s.out) (f s)) : Stale (OptR b0 b0' lo) (M.get >>= f) := by
  intro p p' h
  show StaleOut _ (f p p) (f p' p')
  have : f p' = f p := by
    have := h1 p p'.buf
    rw [← h.1] at this
    exact this
  rw [this]
  exact (h2 p h.2.2 p p' ⟨h.1, h.2.1, le_rfl⟩).mono fun _ _ => OptR.mono h.2.2

theorem opt_access {g : ODecomp → Option α} (hg : ∀ s b, g { s with buf := b } = g s) : Stale (OptR b0 b0' lo) (M.access g) :=
  Stale.access fun p p' h => by
    have := hg p p'.buf
    rw [← h.1] at this
    exact this.symm

theorem opt_modify {g : ODecomp → ODecomp} (hg : ∀ s b, g { s with buf := b } = { g s with buf := b })
    (ho : ∀ s, (g s).out = s.out ∧ (g s).buf = s.buf) : Stale (OptR b0 b0' lo) (M.modify g) :=
  Stale.modify fun p p' h => by
    have h1 := hg p p'.buf
    rw [← h.1] at h1
    have h2 := ho p
    refine ⟨?_, ?_, ?_⟩
    · rw [h1]
    · rw [h1, h2.2, h2.1]
      exact h.2.1
    · rw [h2.1]
      exact h.2.2

theorem opt_setError (er : Errno) : Stale (OptR b0 b0' lo) (M.modify (ODecomp.setError er)) := by
  refine opt_modify (fun s b => ?_) fun s => ?_
  · obtain ⟨_, _, _, _, _, _, er', _, _⟩ := s
    cases er' <;> rfl
  · unfold ODecomp.setError
    cases s.errorcode <;> exact ⟨rfl, rfl⟩

theorem opt_emit (bs : List Byte) : Stale (OptR b0 b0' lo) (oemit bs) := by
  intro p p' h
  obtain ⟨h1, h2, h4⟩ := h
  unfold oemit
  rw [M.bind_def, M.bind_def]
  have hw : writeBytes p'.buf p'.out bs = writeBytes p'.buf p.out bs := by rw [h1]
  rcases h2.write bs with ⟨ha, hb⟩ | ⟨c, c', ha, hb, hc⟩
  · simp only [M.update, ha, hw, hb, Option.map_none]
    exact .ub
  · simp only [M.update, ha, hw, hb, Option.map_some, M.modify]
    refine .ok ⟨?_, hc, ?_⟩
    · rw [h1]
    · show lo ≤ p.out + bs.length
      omega

theorem opt_readWord (e : Endian) : Stale (OptR b0 b0' lo) (readWord e) := by
  unfold readWord
  exact opt_get (fun _ _ => rfl) fun s _ => .ite (.bind (opt_setError _) fun _ => .pure _)
    (.bind (opt_access fun _ _ => rfl) fun _ => .bind (opt_modify (fun _ _ => rfl) fun _ => ⟨rfl, rfl⟩) fun _ => .pure _)

theorem opt_readBits (e : Endian) (n : Nat) : Stale (OptR b0 b0' lo) (readBits e n) := by
  unfold readBits
  exact opt_get (fun _ _ => rfl) fun s _ => .ite
    (.bind (opt_readWord e) fun _ => .bind (opt_access fun _ _ => rfl) fun _ => .bind (opt_modify (fun _ _ => rfl) fun _ => ⟨rfl, rfl⟩) fun _ => .pure _)
    (.bind (opt_access fun _ _ => rfl) fun _ => .bind (opt_modify (fun _ _ => rfl) fun _ => ⟨rfl, rfl⟩) fun _ => .pure _)

theorem opt_odoData (e : Endian) {n : Nat} (hn : n = 2 ∨ n = 4 ∨ n = 8) (d : BitVec 64) : Stale (OptR b0 b0' lo) (odoData e n d) := by
  unfold odoData
  rcases hn with rfl | rfl | rfl
  · exact opt_emit _
  · exact opt_emit _
  · exact opt_emit _

theorem opt_odoIndex (size index fsize : Nat) : Stale (OptR b0 b0' lo) (odoIndex size index fsize) := by
  unfold odoIndex
  refine opt_get (fun _ _ => rfl) fun s _ => ?_
  dsimp only
  split
  · exact opt_setError _
  · rename_i hc
    refine .bind (.access fun p p' hp => hp.2.1.read ?_) fun _ => opt_emit _
    have := roundDown_le s.out 8
    have := hp.2.2
    omega

def OptStep.wide : OptStep → Prop
  | .data n _ _ => n = 2 ∨ n = 4 ∨ n = 8
  | .index _ _ _ _ => True

theorem optSwitch_wide : ∀ row ∈ optSwitch, ∀ st ∈ row.2, OptStep.wide st := by
  simp [optSwitch, OptStep.wide]

theorem opt_optSteps (e : Endian) (rep : BitVec 64) : ∀ ss : List OptStep, (∀ st ∈ ss, OptStep.wide st) →
    Stale (OptR b0 b0' lo) (optSteps e rep ss)
  | [], _ => .pure _
  | .data n s w :: ss, h => by
    unfold optSteps optStep
    exact .bind (.bind (opt_access fun _ _ => rfl) fun _ => opt_odoData e (h _ List.mem_cons_self) _)
      fun _ => opt_optSteps e rep ss fun st hs => h st (List.mem_cons_of_mem _ hs)
  | .index n s w f :: ss, h => by
    unfold optSteps optStep
    exact .bind (.bind (opt_access fun _ _ => rfl) fun _ => opt_odoIndex _ _ _)
      fun _ => opt_optSteps e rep ss fun st hs => h st (List.mem_cons_of_mem _ hs)

theorem opt_checkError : Stale (OptR b0 b0' lo) checkError := by
  unfold checkError
  refine opt_get (fun _ _ => rfl) fun s _ => ?_
  cases s.errorcode with
  | none => exact .pure _
  | some er => exact .fail _

theorem opt_odoRepeat : ∀ n : Nat, Stale (OptR b0 b0' lo) (odoRepeat n)
  | 0 => .pure _
  | n + 1 => by
    unfold odoRepeat
    refine .bind (.access fun p p' h => ?_) fun bs => .bind (opt_emit bs) fun _ => opt_odoRepeat n
    have ho : p'.out = p.out := by rw [h.1]
    rw [ho]
    by_cases hc : p.out < 8
    · rw [if_pos hc, if_pos hc]
    · rw [if_neg hc, if_neg hc]
      exact h.2.1.read (by omega)

theorem opt_odoOp (e : Endian) (op : Nat) : Stale (OptR b0 b0' lo) (odoOp e op) := by
  unfold odoOp
  split
  · rename_i n steps hs
    exact .bind (opt_readBits e _) fun _ => opt_optSteps e _ _ (optSwitch_wide _ (List.mem_of_getElem? hs))
  · refine .ite ?_ (.ite (opt_emit _) (.fail _))
    exact .bind (opt_readBits e _) fun _ => .bind opt_checkError fun _ => opt_get (fun _ _ => rfl) fun _ _ =>
      .ite (.fail _) (.ite (.fail _) (opt_odoRepeat _))

theorem opt_optIter (e : Endian) : Stale (OptR b0 b0' lo) (optIter e) := by
  unfold optIter
  exact .bind (opt_readBits e _) fun _ => .bind opt_checkError fun _ => opt_get (fun _ _ => rfl) fun _ _ =>
    .ite (.fail _) (.ite (.pure _) (.bind (opt_odoOp e _) fun _ => .bind opt_checkError fun _ => .pure _))

theorem opt_optBody (e : Endian) (aout fuel : Nat) : Stale (OptR b0 b0' lo) (optBody e aout fuel) := by
  unfold optBody
  refine .bind (.doWhile (opt_optIter e) fuel) fun _ => .bind (opt_readBits e _) fun _ => .bind opt_checkError fun _ =>
    opt_get (fun _ _ => rfl) fun s _ => .bind (.access fun p p' h => ?_) fun _ => .ite (.fail _) (.pure _)
  have h1 : p'.out = p.out := by rw [h.1]
  rw [h1]
  exact h.2.1.crc e aout

theorem optBody_len {e : Endian} {aout fuel n : Nat} {p q : ODecomp} (hm : optBody e aout fuel p = .ok n q) : n = q.out := by
  unfold optBody at hm
  rw [M.bind_def] at hm
  split at hm <;> try cases hm
  rw [M.bind_def] at hm
  split at hm <;> try cases hm
  rw [M.bind_def] at hm
  split at hm <;> try cases hm
  rw [M.get_bind_apply, M.bind_def] at hm
  unfold M.access at hm
  split at hm <;> try cases hm
  rename_i heq
  split at heq <;> cases heq
  split at hm
  · cases hm
  cases hm
  rfl

end Opt

theorem opt_stale (e : Endian) (ain aout fuel : Nat) (inp : List Byte) (k : Nat) :
    StaleCalls k fun b => optsw842DecompressF fuel e ain aout inp b := by
  unfold optsw842DecompressF
  split
  · exact sw_stale e aout fuel inp k
  have h0 : ∀ b : List Byte, b.length = k → OptR (List.replicate k 0) b 0 (optInit inp (List.replicate k 0)) (optInit inp b) := fun b hb =>
    ⟨by simp [optInit, hb], StaleBuf.init (by simp [hb]), Nat.zero_le _⟩
  exact StaleCalls.of_out (len := fun p => p.out) (R := fun b => OptR (List.replicate k 0) b 0) (y := fun b => optBody e aout fuel (optInit inp b))
    (fun o => match o with
    | .ok n p => .ret none n p.buf
    | .err er p => .ret (some er) 0 p.buf
    | .ub => .ub
    | .timeout => .timeout) (fun _ _ => rfl) (fun _ _ => rfl) rfl rfl
    (fun b hb => opt_optBody e aout fuel _ _ (h0 b hb)) (fun _ _ _ _ hp => hp.2.1) fun n p hx b p' hp => optBody_len hx

/-! ## The OpenCL decompressor, with a separate input buffer -/

/-- Related states of the OpenCL decompressor; `lo` counts words. -/
def OclR (b0 b0' : List Byte) (lo : Nat) (p p' : OclP) : Prop :=
  p' = { p with buf := p'.buf } ∧ StaleBuf b0 b0' p.buf p'.buf (8 * p.out) ∧ lo ≤ p.out ∧ p.src.isSome

section Ocl
variable {b0 b0' : List Byte} {lo : Nat} {α β : Type}

theorem OclR.mono {lo' : Nat} (h : lo ≤ lo') {p p' : OclP} (hp : OclR b0 b0' lo' p p') : OclR b0 b0' lo p p' :=
  ⟨hp.1, hp.2.1, by have := hp.2.2.1; omega, hp.2.2.2⟩

theorem ocl_get {f : OclP → M OclP α} (h1 : ∀ s b, f { s with buf := b } = f s)
    (h2 : ∀ s : OclP, lo ≤ s.out → Stale (OclR b0 b0' s.out) (f s)) : Stale (OclR b0 b0' lo) (M.get >>= f) := by
  intro p p' h
  show StaleOut _ (f p p) (f p' p')
  have : f p' = f p := by
    have := h1 p p'.buf
    rw [← h.1] at this
    exact this
  rw [this]
  exact (h2 p h.2.2.1 p p' ⟨h.1, h.2.1, le_rfl, h.2.2.2⟩).mono fun _ _ => OclR.mono h.2.2.1

theorem ocl_access {g : OclP → Option α} (hg : ∀ s b, g { s with buf := b } = g s) : Stale (OclR b0 b0' lo) (M.access g) :=
  Stale.access fun p p' h => by
    have := hg p p'.buf
    rw [← h.1] at this
    exact this.symm

theorem ocl_modify {g : OclP → OclP} (hg : ∀ s b, g { s with buf := b } = { g s with buf := b })
    (ho : ∀ s, (g s).out = s.out ∧ (g s).buf = s.buf ∧ (g s).src = s.src) : Stale (OclR b0 b0' lo) (M.modify g) :=
  Stale.modify fun p p' h => by
    have h1 := hg p p'.buf
    rw [← h.1] at h1
    have h2 := ho p
    refine ⟨?_, ?_, ?_, ?_⟩
    · rw [h1]
    · rw [h1, h2.2.1, h2.1]
      exact h.2.1
    · rw [h2.1]
      exact h.2.2.1
    · rw [h2.2.2]
      exact h.2.2.2

theorem ocl_fetch (e : Endian) (k : Nat) {p p' : OclP} (h : OclR b0 b0' lo p p') : oclFetch e k p = oclFetch e k p' := by
  have h1 := h.1
  have hi : p'.input = p.input := by
    obtain ⟨s, hs⟩ := Option.isSome_iff_exists.1 h.2.2.2
    have : p'.src = p.src := by rw [h1]
    unfold OclP.input
    rw [this, hs]
    rfl
  have hw : p'.word = p.word := by rw [h1]
  have hl : p'.ilen = p.ilen := by rw [h1]
  have ho : p'.ioff = p.ioff := by rw [h1]
  unfold oclFetch
  rw [hi, hw, hl, ho]

theorem ocl_shift (e : Endian) : Stale (OclR b0 b0' lo) (oclShift e) := by
  unfold oclShift
  refine .bind (.access fun _ _ h => ocl_fetch e 6 h) fun w => ocl_get (fun _ _ => rfl) fun s _ => ?_
  split
  · exact .bind (ocl_modify (fun _ _ => rfl) fun _ => ⟨rfl, rfl, rfl⟩) fun _ => .pure _
  · exact .ub

theorem ocl_readBits (e : Endian) (n : Nat) : Stale (OclR b0 b0' lo) (oclReadBits e n) := by
  unfold oclReadBits
  exact ocl_get (fun _ _ => rfl) fun s _ => .ite
    (.ite (.fail _) (.bind (ocl_shift e) fun _ => .bind (ocl_modify (fun _ _ => rfl) fun _ => ⟨rfl, rfl, rfl⟩) fun _ =>
      .bind (ocl_access fun _ _ => rfl) fun _ => .bind (ocl_modify (fun _ _ => rfl) fun _ => ⟨rfl, rfl, rfl⟩) fun _ => .pure _))
    (.bind (ocl_access fun _ _ => rfl) fun _ => .bind (ocl_modify (fun _ _ => rfl) fun _ => ⟨rfl, rfl, rfl⟩) fun _ => .pure _)

theorem ocl_put {bs : List Byte} (hb8 : bs.length = 8) : Stale (OclR b0 b0' lo) (oclPut bs) := by
  intro p p' h
  obtain ⟨h1, h2, h4, h5⟩ := h
  unfold oclPut
  rw [M.bind_def, M.bind_def]
  have hw : writeBytes p'.buf (8 * p'.out) bs = writeBytes p'.buf (8 * p.out) bs := by rw [h1]
  rcases h2.write bs with ⟨ha, hb⟩ | ⟨c, c', ha, hb, hc⟩
  · simp only [M.update, ha, hw, hb, Option.map_none]
    exact .ub
  · simp only [M.update, ha, hw, hb, Option.map_some, M.modify]
    refine .ok ⟨?_, ?_, ?_, h5⟩
    · rw [h1]
    · rw [hb8] at hc
      exact hc
    · show lo ≤ p.out + 1
      omega

theorem ocl_room (k : Nat) : Stale (OclR b0 b0' lo) (oclRoom k) := by
  unfold oclRoom
  exact ocl_get (fun _ _ => rfl) fun s _ => .ite (.fail _) (.pure _)

/-- Reading a word and storing it -/
theorem ocl_copy {g : OclP → Option (List Byte)} {f : M OclP α} (hg : ∀ p p', OclR b0 b0' lo p p' → g p = g p')
    (hl : ∀ p bs, g p = some bs → bs.length = 8) (hf : Stale (OclR b0 b0' lo) f) :
    Stale (OclR b0 b0' lo) (M.access g >>= fun bs => oclPut bs >>= fun _ => f) := by
  intro p p' h
  have h1 := hg p p' h
  cases hb : g p with
  | none =>
    rw [hb] at h1
    rw [access_bind_none hb, access_bind_none h1.symm]
    exact .ub
  | some bs =>
    rw [hb] at h1
    rw [M.access_bind_some hb, M.access_bind_some h1.symm]
    exact Stale.bind (ocl_put (hl _ _ hb)) (fun _ => hf) p p' h

theorem readBytes_len {m bs : List Byte} {i k : Nat} (h : readBytes m i k = some bs) : bs.length = k := by
  unfold readBytes at h
  split at h
  · cases h
    simp
    omega
  · cases h

theorem ocl_repeat : ∀ n : Nat, Stale (OclR b0 b0' lo) (oclRepeat n)
  | 0 => .pure _
  | n + 1 => by
    unfold oclRepeat
    refine ocl_copy (fun p p' h => ?_) (fun p bs h => ?_) (ocl_repeat n)
    · have ho : p'.out = p.out := by rw [h.1]
      rw [ho]
      by_cases hc : p.out = 0
      · rw [if_pos hc, if_pos hc]
      · rw [if_neg hc, if_neg hc]
        exact h.2.1.read (by omega)
    · split at h
      · cases h
      · exact readBytes_len h

theorem ocl_ref (e : Endian) {dst o : Nat} (hd : dst = 2 ∨ dst = 4) (ho : o % 2 = 0) (hlo : o + dst ≤ 8 * lo) :
    Stale (OclR b0 b0' lo) (oclRef e dst o) := by
  intro p p' h
  have hl := h.2.1.len
  have h0 := h.2.1.len0
  have hle := h.2.2.1
  by_cases h4 : o + 4 ≤ p.buf.length
  · obtain ⟨v, hv, hvn⟩ := oclRef_spec e hd ho h4
    obtain ⟨v', hv', hvn'⟩ := oclRef_spec e (p := p') hd ho (by omega)
    have : v = v' := by
      apply BitVec.eq_of_toNat_eq
      rw [hvn, hvn']
      have hr : readBytes p.buf o dst = readBytes p'.buf o dst := h.2.1.read (by omega)
      rw [readBytes_ok (by rcases hd with rfl | rfl <;> omega), readBytes_ok (by rcases hd with rfl | rfl <;> omega)] at hr
      rw [Option.some.inj hr]
    rw [hv, hv', this]
    exact .ok h
  · rw [oclRef_ub e ho (by rcases hd with rfl | rfl <;> omega) (by omega),
      oclRef_ub e ho (by rcases hd with rfl | rfl <;> omega) (by omega)]
    exact .ub

theorem indexOffset_even {index size fsize total : Nat} (h1 : size % 2 = 0) (h2 : fsize % 2 = 0) (h3 : total % 2 = 0) :
    indexOffset index size fsize total % 2 = 0 := by
  obtain ⟨s, rfl⟩ := Nat.dvd_of_mod_eq_zero h1
  obtain ⟨f, rfl⟩ := Nat.dvd_of_mod_eq_zero h2
  obtain ⟨t, rfl⟩ := Nat.dvd_of_mod_eq_zero h3
  have h4 : index * (2 * s) = 2 * (index * s) := Nat.mul_left_comm _ _ _
  unfold indexOffset roundDown
  rw [Nat.mul_mod_mul_left, h4]
  dsimp only
  split
  · split <;> omega
  · omega

theorem ocl_getIndex {size index fsize : Nat} {f : Nat → M OclP α}
    (hf : ∀ t offset, offset = indexOffset index size fsize (t * 8) → offset + size ≤ t * 8 → Stale (OclR b0 b0' t) (f offset)) :
    Stale (OclR b0 b0' lo) (oclGetIndex size index fsize >>= f) := by
  intro p p' h
  have ho : p'.out = p.out := by rw [h.1]
  have hx : ∀ q : OclP, oclGetIndex size index fsize q =
      if indexOffset index size fsize (q.out * 8) + size > q.out * 8 then .err .EINVAL q
      else .ok (indexOffset index size fsize (q.out * 8)) q := by
    intro q
    unfold oclGetIndex
    rw [M.get_bind_apply]
    split <;> rfl
  rw [M.bind_def, M.bind_def, hx, hx, ho]
  by_cases hc : indexOffset index size fsize (p.out * 8) + size > p.out * 8
  · rw [if_pos hc, if_pos hc]
    exact .err h
  · rw [if_neg hc, if_neg hc]
    exact (hf p.out _ rfl (by omega) p p' ⟨h.1, h.2.1, le_rfl, h.2.2.2⟩).mono fun _ _ => OclR.mono h.2.2.1

theorem ocl_field (e : Endian) (params : BitVec 64) {isIndex dst numBits : Nat} (hd : isIndex ≠ 0 → dst = 2 ∨ dst = 4)
    (l : Nat × BitVec 64 × Nat) : Stale (OclR b0 b0' lo) (oclField e params isIndex dst numBits l) := by
  unfold oclField
  dsimp only
  by_cases hi : isIndex ≠ 0
  · rw [if_pos hi]
    have hf : oclFifoSize dst % 2 = 0 := by
      rcases hd hi with rfl | rfl <;> decide
    refine ocl_getIndex fun t offset ho hle => .bind (ocl_ref e (hd hi) ?_ (by omega)) fun _ => .pure _
    rw [ho]
    exact indexOffset_even (by rcases hd hi with rfl | rfl <;> rfl) hf (by omega)
  · rw [if_neg hi]
    exact .pure _

theorem ocl_fields (e : Endian) (params : BitVec 64) : ∀ (fs : List (Nat × Nat × Nat)) (l : Nat × BitVec 64 × Nat),
    (∀ f ∈ fs, f.1 ≠ 0 → f.2.1 = 2 ∨ f.2.1 = 4) → Stale (OclR b0 b0' lo) (oclFields e params fs l)
  | [], l, _ => .pure _
  | f :: fs, l, h => by
    unfold oclFields
    exact .bind (ocl_field e params (h f List.mem_cons_self) l) fun l' =>
      ocl_fields e params fs l' fun g hg => h g (List.mem_cons_of_mem _ hg)

theorem oclRow_dst : ∀ op < 25, ∀ f ∈ oclRow op, f.1 ≠ 0 → f.2.1 = 2 ∨ f.2.1 = 4 := by decide +kernel

theorem ocl_doOp (e : Endian) {op : Nat} (h25 : op ≠ 25) : Stale (OclR b0 b0' lo) (oclDoOp e op) := by
  unfold oclDoOp
  split
  · exact .fail _
  · exact .bind (ocl_readBits e _) fun _ => .bind (ocl_fields e _ _ _ (oclRow_dst op (by omega))) fun _ =>
      .bind (ocl_room 1) fun _ => ocl_put (length_wordBytes64 _ _)

theorem ocl_iter (e : Endian) : Stale (OclR b0 b0' lo) (oclIter e) := by
  unfold oclIter
  refine .bind (ocl_readBits e _) fun op => .ite ?_ (.ite ?_ (.ite (.pure _) ?_))
  · exact .bind (ocl_readBits e _) fun _ => ocl_get (fun _ _ => rfl) fun _ _ => .ite (.fail _)
      (.bind (ocl_room _) fun _ => .bind (ocl_repeat _) fun _ => .pure _)
  · exact .bind (ocl_room _) fun _ => .bind (ocl_put rfl) fun _ => .pure _
  · split
    · refine .bind (ocl_readBits e _) fun value => ocl_getIndex fun t offset _ hle => .bind (ocl_room 1) fun _ =>
        ocl_copy (fun q q' hq => hq.2.1.read ?_) (fun _ _ hb => readBytes_len hb) (.pure _)
      have := hq.2.2.1
      rw [Nat.shiftRight_eq_div_pow]
      omega
    · rename_i hne
      exact .bind (ocl_doOp e hne) fun _ => .pure _

theorem ocl_body (e : Endian) (fuel : Nat) : Stale (OclR b0 b0' lo) (oclBody e fuel) := by
  unfold oclBody
  exact .bind (.doWhile (ocl_iter e) fuel) fun _ => .bind (ocl_readBits e _) fun _ => ocl_get (fun _ _ => rfl) fun _ _ => .pure _

theorem oclBody_len {e : Endian} {fuel n : Nat} {p q : OclP} (hm : oclBody e fuel p = .ok n q) : n = 8 * q.out := by
  unfold oclBody at hm
  rw [M.bind_def] at hm
  split at hm <;> try cases hm
  rw [M.bind_def] at hm
  split at hm <;> try cases hm
  exact Nat.mul_comm _ _

end Ocl

def oclCall : Outcome OclP Nat → Call
  | .ok n p => .ret none n p.buf
  | .err er p => .ret (some er) 0 p.buf
  | .ub => .ub
  | .timeout => .timeout

theorem ocl_stale (e : Endian) (src : List Byte) (ioff ilen olen k : Nat) :
    StaleCalls k fun b => oclCore e (some src) ioff ilen b olen := by
  have h0 : ∀ b : List Byte, b.length = k → OclR (List.replicate k 0) b 0 (oclStart (some src) ioff ilen (List.replicate k 0) olen)
      (oclStart (some src) ioff ilen b olen) := fun b hb => ⟨rfl, StaleBuf.init (by simp [hb]), Nat.zero_le _, rfl⟩
  have hi : ∀ b : List Byte, b.length = k → (oclInit e (oclStart (some src) ioff ilen b olen)) =
      (oclInit e (oclStart (some src) ioff ilen (List.replicate k 0) olen)).map fun p => { p with buf := b } := by
    intro b hb
    have h0 := h0 b hb
    unfold oclInit
    rw [← ocl_fetch e 0 h0, ← ocl_fetch e 1 h0, ← ocl_fetch e 2 h0, ← ocl_fetch e 3 h0, ← ocl_fetch e 4 h0, ← ocl_fetch e 5 h0]
    split
    · rfl
    · rfl
  cases hp : oclInit e (oclStart (some src) ioff ilen (List.replicate k 0) olen) with
  | none =>
    refine .inl fun b hb => ?_
    show oclCore e (some src) ioff ilen b olen = .ub
    unfold oclCore
    rw [hi b hb, hp]
    rfl
  | some p =>
    have hp0 : ∃ la, p = { oclStart (some src) ioff ilen (List.replicate k 0) olen with la := la } := by
      unfold oclInit at hp
      split at hp
      · cases hp
        exact ⟨_, rfl⟩
      · cases hp
    obtain ⟨la, rfl⟩ := hp0
    have hc : StaleCalls k fun b => oclCall (oclBody e (8 * ilen + 1) { oclStart (some src) ioff ilen b olen with la := la }) :=
      StaleCalls.of_out (len := fun p => 8 * p.out) (R := fun b => OclR (List.replicate k 0) b 0)
        (y := fun b => oclBody e (8 * ilen + 1) { oclStart (some src) ioff ilen b olen with la := la }) (x := oclBody e (8 * ilen + 1) { oclStart (some src) ioff ilen (List.replicate k 0) olen with la := la }) oclCall (fun _ _ => rfl) (fun _ _ => rfl) rfl rfl
        (fun b hb => ocl_body e _ _ _ ⟨rfl, StaleBuf.init (by simp [hb]), Nat.zero_le _, rfl⟩) (fun _ _ _ _ hp => hp.2.1)
        fun n p hx b p' hp => oclBody_len hx
    have hx : ∀ b : List Byte, b.length = k → oclCore e (some src) ioff ilen b olen = oclCall (oclBody e (8 * ilen + 1) { oclStart (some src) ioff ilen b olen with la := la }) := by
      intro b hb
      unfold oclCore
      rw [hi b hb, hp]
      rfl
    rcases hc with h | h | ⟨r, n, w, h1, h2, h3⟩
    · exact .inl fun b hb => (hx b hb).trans (h b hb)
    · exact .inr (.inl fun b hb => (hx b hb).trans (h b hb))
    · exact .inr (.inr ⟨r, n, w, h1, h2, fun b hb => (hx b hb).trans (h3 b hb)⟩)

end Lib842
