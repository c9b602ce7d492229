import Verif.Model.SwComp
import Verif.Model.SwDecomp
/-!
# Lemmas about the depth of the recursion of `add_bits` and `next_bits`
-/

namespace Lib842

/-- `f` calls on top of each other are enough for `add_bits` in the state `w`, and a state it returns in is one between calls -/
def AddDepth (e : Endian) (f n : Nat) (w : Writer) : Prop :=
  ∀ d, addBitsF e f d n w ≠ .timeout ∧ (∀ f', f ≤ f' → addBitsF e f' d n w = addBitsF e f d n w) ∧
    ∀ a w', addBitsF e f d n w = .ok a w' → w'.bit < 8

theorem splitAdd_depth {e : Endian} {f n s : Nat} {w : Writer} (h1 : AddDepth e f (n - s) w)
    (h2 : ∀ w' : Writer, w'.bit < 8 → AddDepth e f s w') (d : BitVec 64) :
    splitAddBits (addBitsF e f) d n s w ≠ .timeout ∧
      (∀ f', f ≤ f' → splitAddBits (addBitsF e f') d n s w = splitAddBits (addBitsF e f) d n s w) ∧
      ∀ a w', splitAddBits (addBitsF e f) d n s w = .ok a w' → w'.bit < 8 := by
  unfold splitAddBits
  by_cases hs : n ≤ s
  · simp only [if_pos hs]
    exact ⟨(fun h => by cases h), fun _ _ => trivial, (fun _ _ h => by cases h)⟩
  · simp only [if_neg hs]
    simp only [bind, M.bind]
    obtain ⟨a1, a2, a3⟩ := h1 (d >>> s)
    cases hr : addBitsF e f (d >>> s) (n - s) w with
    | timeout => exact absurd hr a1
    | err er w' =>
      simp only
      refine ⟨(fun h => by cases h), fun f' hf => ?_, (fun _ _ h => by cases h)⟩
      rw [a2 f' hf, hr]
    | ub =>
      simp only
      refine ⟨(fun h => by cases h), fun f' hf => ?_, (fun _ _ h => by cases h)⟩
      rw [a2 f' hf, hr]
    | ok a w' =>
      simp only
      obtain ⟨b1, b2, b3⟩ := h2 w' (a3 a w' hr) (d &&& genmask (s - 1) 0)
      refine ⟨b1, fun f' hf => ?_, b3⟩
      rw [a2 f' hf, hr]
      exact b2 f' hf

/-- One call: the splits are bounded by `hs` -/
theorem addDepth_succ {e : Endian} {f n : Nat} {w : Writer}
    (h32 : n ≤ 64 → w.bit + n > 64 → AddDepth e f (n - 32) w ∧ ∀ w' : Writer, w'.bit < 8 → AddDepth e f 32 w')
    (h16 : w.bit + n > 32 → w.bit + n ≤ 56 → AddDepth e f (n - 16) w ∧ ∀ w' : Writer, w'.bit < 8 → AddDepth e f 16 w')
    (h8 : w.bit + n > 16 → w.bit + n ≤ 24 → AddDepth e f (n - 8) w ∧ ∀ w' : Writer, w'.bit < 8 → AddDepth e f 8 w') :
    AddDepth e (f + 1) n w := by
  intro d
  have hone : ∀ f', addBitsF e (f' + 1) d n w =
      if n > 64 then .err .EINVAL w
      else if w.bit + n > 64 then splitAddBits (addBitsF e f') d n 32 w
      else if w.olen < 8 ∧ w.bit + n > 32 ∧ w.bit + n ≤ 56 then splitAddBits (addBitsF e f') d n 16 w
      else if w.olen < 4 ∧ w.bit + n > 16 ∧ w.bit + n ≤ 24 then splitAddBits (addBitsF e f') d n 8 w
      else addBitsF e 1 d n w := by
    intro f'
    unfold addBitsF
    simp only [bind, M.bind, M.get]
    split
    · rfl
    · split
      · rfl
      · split
        · rfl
        · split
          · rfl
          · rfl
  have hwrap : ∀ f', f + 1 ≤ f' → ∃ g, f' = g + 1 ∧ f ≤ g := fun f' h => ⟨f' - 1, by omega, by omega⟩
  have hlift : ∀ s, n ≤ 64 →
      (splitAddBits (addBitsF e f) d n s w ≠ .timeout ∧
        (∀ f', f ≤ f' → splitAddBits (addBitsF e f') d n s w = splitAddBits (addBitsF e f) d n s w) ∧
        ∀ a w', splitAddBits (addBitsF e f) d n s w = .ok a w' → w'.bit < 8) →
      (∀ f', addBitsF e (f' + 1) d n w = splitAddBits (addBitsF e f') d n s w) →
      addBitsF e (f + 1) d n w ≠ .timeout ∧ (∀ f', f + 1 ≤ f' → addBitsF e f' d n w = addBitsF e (f + 1) d n w) ∧
        ∀ a w', addBitsF e (f + 1) d n w = .ok a w' → w'.bit < 8 := by
    intro s _ ⟨c1, c2, c3⟩ heq
    rw [heq f]
    refine ⟨c1, fun f' hf => ?_, c3⟩
    obtain ⟨g, rfl, hg⟩ := hwrap f' hf
    rw [heq g]
    exact c2 g hg
  by_cases hn : n > 64
  · simp only [if_pos hn] at hone
    rw [hone]
    refine ⟨(by intro h; cases h), fun f' hf => ?_, (fun _ _ h => by cases h)⟩
    obtain ⟨g, rfl, -⟩ := hwrap f' hf
    exact hone g
  · simp only [if_neg hn] at hone
    by_cases c1 : w.bit + n > 64
    · simp only [if_pos c1] at hone
      obtain ⟨i1, i2⟩ := h32 (by omega) c1
      exact hlift 32 (by omega) (splitAdd_depth i1 i2 d) hone
    · simp only [if_neg c1] at hone
      by_cases c2 : w.olen < 8 ∧ w.bit + n > 32 ∧ w.bit + n ≤ 56
      · simp only [if_pos c2] at hone
        obtain ⟨i1, i2⟩ := h16 c2.2.1 c2.2.2
        exact hlift 16 (by omega) (splitAdd_depth i1 i2 d) hone
      · simp only [if_neg c2] at hone
        by_cases c3 : w.olen < 4 ∧ w.bit + n > 16 ∧ w.bit + n ≤ 24
        · simp only [if_pos c3] at hone
          obtain ⟨i1, i2⟩ := h8 c3.2.1 c3.2.2
          exact hlift 8 (by omega) (splitAdd_depth i1 i2 d) hone
        · simp only [if_neg c3] at hone
          rw [hone]
          have hw : ∀ f', f + 1 ≤ f' → addBitsF e f' d n w = addBitsF e 1 d n w := by
            intro f' hf
            obtain ⟨g, rfl, -⟩ := hwrap f' hf
            exact hone g
          refine ⟨?_, hw, ?_⟩
          · unfold addBitsF
            simp only [bind, M.bind, M.get, if_neg hn, if_neg c1, if_neg c2, if_neg c3]
            split
            · intro h; cases h
            · simp only [M.bind, M.access, M.update, M.modify]
              cases w.buf[w.out]? with
              | none => intro h; cases h
              | some cur =>
                simp only
                cases bmask[w.bit]? with
                | none => intro h; cases h
                | some mask =>
                  simp only
                  cases (putBits e w.buf w.out (w.bit + n) ((cur &&& mask).setWidth 64)
                      (d <<< (roundUp8 (w.bit + n) - (w.bit + n)))) with
                  | none => intro h; cases h
                  | some buf => intro h; cases h
          · intro a w' h
            unfold addBitsF at h
            simp only [bind, M.bind, M.get, if_neg hn, if_neg c1, if_neg c2, if_neg c3] at h
            split at h
            · cases h
            · simp only [M.bind, M.access, M.update, M.modify] at h
              cases hx : w.buf[w.out]? with
              | none => rw [hx] at h; cases h
              | some cur =>
                rw [hx] at h
                simp only at h
                cases hm : bmask[w.bit]? with
                | none => rw [hm] at h; cases h
                | some mask =>
                  rw [hm] at h
                  simp only at h
                  cases hp : (putBits e w.buf w.out (w.bit + n) ((cur &&& mask).setWidth 64)
                      (d <<< (roundUp8 (w.bit + n) - (w.bit + n)))) with
                  | none => rw [hp] at h; cases h
                  | some buf =>
                    rw [hp] at h
                    simp only [Option.map_some] at h
                    injection h with _ h
                    subst h
                    by_cases hb7 : w.bit + n > 7
                    · rw [if_pos hb7]; exact Nat.mod_lt _ (by decide)
                    · rw [if_neg hb7]; show w.bit + n < 8; omega

theorem addDepth_1 {e : Endian} {n : Nat} {w : Writer} (h : w.bit + n ≤ 16) : AddDepth e 1 n w :=
  addDepth_succ (fun _ h' => by omega) (fun h' _ => by omega) (fun h' _ => by omega)

theorem addDepth_2 {e : Endian} {n : Nat} {w : Writer} (hb : w.bit < 8) (h : w.bit + n ≤ 24) : AddDepth e 2 n w :=
  addDepth_succ (fun _ h' => by omega) (fun h' _ => by omega)
    (fun _ _ => ⟨addDepth_1 (by omega), fun _ hb' => addDepth_1 (by omega)⟩)

theorem addDepth_3 {e : Endian} {n : Nat} {w : Writer} (hb : w.bit < 8) (h : w.bit + n ≤ 40) : AddDepth e 3 n w :=
  addDepth_succ (fun _ h' => by omega)
    (fun _ _ => ⟨addDepth_2 hb (by omega), fun _ hb' => addDepth_2 hb' (by omega)⟩)
    (fun _ _ => ⟨addDepth_2 hb (by omega), fun _ hb' => addDepth_2 hb' (by omega)⟩)

theorem addDepth_4 {e : Endian} {n : Nat} {w : Writer} (hb : w.bit < 8) : AddDepth e 4 n w :=
  addDepth_succ
    (fun _ _ => ⟨addDepth_3 hb (by omega), fun _ hb' => addDepth_3 hb' (by omega)⟩)
    (fun _ _ => ⟨addDepth_3 hb (by omega), fun _ hb' => addDepth_3 hb' (by omega)⟩)
    (fun _ _ => ⟨addDepth_3 hb (by omega), fun _ hb' => addDepth_3 hb' (by omega)⟩)

/-- `f` calls on top of each other are enough for `next_bits` in the state `p` -/
def NextDepth (e : Endian) (f n : Nat) (p : Decomp) : Prop :=
  nextBitsF e f n p ≠ .timeout ∧ (∀ f', f ≤ f' → nextBitsF e f' n p = nextBitsF e f n p) ∧
    ∀ a p', nextBitsF e f n p = .ok a p' → p'.bit < 8

theorem splitNext_depth {e : Endian} {f n s : Nat} {p : Decomp} (h1 : NextDepth e f (n - s) p)
    (h2 : ∀ p' : Decomp, p'.bit < 8 → NextDepth e f s p') :
    splitNextBits (nextBitsF e f) n s p ≠ .timeout ∧
      (∀ f', f ≤ f' → splitNextBits (nextBitsF e f') n s p = splitNextBits (nextBitsF e f) n s p) ∧
      ∀ a p', splitNextBits (nextBitsF e f) n s p = .ok a p' → p'.bit < 8 := by
  unfold splitNextBits
  by_cases hs : n ≤ s
  · simp only [if_pos hs]
    exact ⟨(fun h => by cases h), fun _ _ => trivial, (fun _ _ h => by cases h)⟩
  · simp only [if_neg hs]
    simp only [bind, M.bind]
    obtain ⟨a1, a2, a3⟩ := h1
    cases hr : nextBitsF e f (n - s) p with
    | timeout => exact absurd hr a1
    | err er p' =>
      simp only
      refine ⟨(fun h => by cases h), fun f' hf => ?_, (fun _ _ h => by cases h)⟩
      rw [a2 f' hf, hr]
    | ub =>
      simp only
      refine ⟨(fun h => by cases h), fun f' hf => ?_, (fun _ _ h => by cases h)⟩
      rw [a2 f' hf, hr]
    | ok a p' =>
      simp only
      obtain ⟨b1, b2, b3⟩ := h2 p' (a3 a p' hr)
      cases hq : nextBitsF e f s p' with
      | timeout => exact absurd hq b1
      | err er p'' =>
        simp only
        refine ⟨(fun h => by cases h), fun f' hf => ?_, (fun _ _ h => by cases h)⟩
        simp only [a2 f' hf, hr, b2 f' hf, hq]
      | ub =>
        simp only
        refine ⟨(fun h => by cases h), fun f' hf => ?_, (fun _ _ h => by cases h)⟩
        simp only [a2 f' hf, hr, b2 f' hf, hq]
      | ok b p'' =>
        simp only
        refine ⟨(fun h => by cases h), fun f' hf => ?_, fun c q h => ?_⟩
        · simp only [a2 f' hf, hr, b2 f' hf, hq]
        · injection h with _ h
          subst h
          exact b3 b p'' hq

theorem nextDepth_succ {e : Endian} {f n : Nat} {p : Decomp}
    (h32 : n ≤ 64 → p.bit + n > 64 → NextDepth e f (n - 32) p ∧ ∀ p' : Decomp, p'.bit < 8 → NextDepth e f 32 p')
    (h16 : p.bit + n > 32 → p.bit + n ≤ 56 → NextDepth e f (n - 16) p ∧ ∀ p' : Decomp, p'.bit < 8 → NextDepth e f 16 p')
    (h8 : p.bit + n > 16 → p.bit + n ≤ 24 → NextDepth e f (n - 8) p ∧ ∀ p' : Decomp, p'.bit < 8 → NextDepth e f 8 p') :
    NextDepth e (f + 1) n p := by
  unfold NextDepth
  have hone : ∀ f', nextBitsF e (f' + 1) n p =
      if n > 64 then .err .EINVAL p
      else if p.bit + n > 64 then splitNextBits (nextBitsF e f') n 32 p
      else if p.ilen < 8 ∧ p.bit + n > 32 ∧ p.bit + n ≤ 56 then splitNextBits (nextBitsF e f') n 16 p
      else if p.ilen < 4 ∧ p.bit + n > 16 ∧ p.bit + n ≤ 24 then splitNextBits (nextBitsF e f') n 8 p
      else nextBitsF e 1 n p := by
    intro f'
    unfold nextBitsF
    simp only [bind, M.bind, M.get]
    split
    · rfl
    · split
      · rfl
      · split
        · rfl
        · split
          · rfl
          · rfl
  have hwrap : ∀ f', f + 1 ≤ f' → ∃ g, f' = g + 1 ∧ f ≤ g := fun f' h => ⟨f' - 1, by omega, by omega⟩
  have hlift : ∀ s,
      (splitNextBits (nextBitsF e f) n s p ≠ .timeout ∧
        (∀ f', f ≤ f' → splitNextBits (nextBitsF e f') n s p = splitNextBits (nextBitsF e f) n s p) ∧
        ∀ a p', splitNextBits (nextBitsF e f) n s p = .ok a p' → p'.bit < 8) →
      (∀ f', nextBitsF e (f' + 1) n p = splitNextBits (nextBitsF e f') n s p) →
      nextBitsF e (f + 1) n p ≠ .timeout ∧ (∀ f', f + 1 ≤ f' → nextBitsF e f' n p = nextBitsF e (f + 1) n p) ∧
        ∀ a p', nextBitsF e (f + 1) n p = .ok a p' → p'.bit < 8 := by
    intro s ⟨c1, c2, c3⟩ heq
    rw [heq f]
    refine ⟨c1, fun f' hf => ?_, c3⟩
    obtain ⟨g, rfl, hg⟩ := hwrap f' hf
    rw [heq g]
    exact c2 g hg
  by_cases hn : n > 64
  · simp only [if_pos hn] at hone
    rw [hone]
    refine ⟨(by intro h; cases h), fun f' hf => ?_, (fun _ _ h => by cases h)⟩
    obtain ⟨g, rfl, -⟩ := hwrap f' hf
    exact hone g
  · simp only [if_neg hn] at hone
    by_cases c1 : p.bit + n > 64
    · simp only [if_pos c1] at hone
      obtain ⟨i1, i2⟩ := h32 (by omega) c1
      exact hlift 32 (splitNext_depth i1 i2) hone
    · simp only [if_neg c1] at hone
      by_cases c2 : p.ilen < 8 ∧ p.bit + n > 32 ∧ p.bit + n ≤ 56
      · simp only [if_pos c2] at hone
        obtain ⟨i1, i2⟩ := h16 c2.2.1 c2.2.2
        exact hlift 16 (splitNext_depth i1 i2) hone
      · simp only [if_neg c2] at hone
        by_cases c3 : p.ilen < 4 ∧ p.bit + n > 16 ∧ p.bit + n ≤ 24
        · simp only [if_pos c3] at hone
          obtain ⟨i1, i2⟩ := h8 c3.2.1 c3.2.2
          exact hlift 8 (splitNext_depth i1 i2) hone
        · simp only [if_neg c3] at hone
          rw [hone]
          have hw : ∀ f', f + 1 ≤ f' → nextBitsF e f' n p = nextBitsF e 1 n p := by
            intro f' hf
            obtain ⟨g, rfl, -⟩ := hwrap f' hf
            exact hone g
          refine ⟨?_, hw, ?_⟩
          · unfold nextBitsF
            simp only [bind, M.bind, M.get, if_neg hn, if_neg c1, if_neg c2, if_neg c3]
            split
            · intro h; cases h
            · simp only [M.bind, M.access, M.modify]
              cases peekBits e p.inp p.pos (p.bit + n) with
              | none => intro h; cases h
              | some v => intro h; cases h
          · intro a p' h
            unfold nextBitsF at h
            simp only [bind, M.bind, M.get, if_neg hn, if_neg c1, if_neg c2, if_neg c3] at h
            split at h
            · cases h
            · simp only [M.bind, M.access, M.modify] at h
              cases hx : peekBits e p.inp p.pos (p.bit + n) with
              | none => rw [hx] at h; cases h
              | some v =>
                rw [hx] at h
                simp only at h
                injection h with _ h
                subst h
                by_cases hb7 : p.bit + n > 7
                · rw [if_pos hb7]; exact Nat.mod_lt _ (by decide)
                · rw [if_neg hb7]; show p.bit + n < 8; omega

theorem nextDepth_1 {e : Endian} {n : Nat} {p : Decomp} (h : p.bit + n ≤ 16) : NextDepth e 1 n p :=
  nextDepth_succ (fun _ h' => by omega) (fun h' _ => by omega) (fun h' _ => by omega)

theorem nextDepth_2 {e : Endian} {n : Nat} {p : Decomp} (hb : p.bit < 8) (h : p.bit + n ≤ 24) : NextDepth e 2 n p :=
  nextDepth_succ (fun _ h' => by omega) (fun h' _ => by omega)
    (fun _ _ => ⟨nextDepth_1 (by omega), fun _ hb' => nextDepth_1 (by omega)⟩)

theorem nextDepth_3 {e : Endian} {n : Nat} {p : Decomp} (hb : p.bit < 8) (h : p.bit + n ≤ 40) : NextDepth e 3 n p :=
  nextDepth_succ (fun _ h' => by omega)
    (fun _ _ => ⟨nextDepth_2 hb (by omega), fun _ hb' => nextDepth_2 hb' (by omega)⟩)
    (fun _ _ => ⟨nextDepth_2 hb (by omega), fun _ hb' => nextDepth_2 hb' (by omega)⟩)

theorem nextDepth_4 {e : Endian} {n : Nat} {p : Decomp} (hb : p.bit < 8) : NextDepth e 4 n p :=
  nextDepth_succ
    (fun _ _ => ⟨nextDepth_3 hb (by omega), fun _ hb' => nextDepth_3 hb' (by omega)⟩)
    (fun _ _ => ⟨nextDepth_3 hb (by omega), fun _ hb' => nextDepth_3 hb' (by omega)⟩)
    (fun _ _ => ⟨nextDepth_3 hb (by omega), fun _ hb' => nextDepth_3 hb' (by omega)⟩)

end Lib842
