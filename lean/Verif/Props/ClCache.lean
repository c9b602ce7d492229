import Verif.Proofs.ClCache
/-!
# Properties of the cache of compiled OpenCL programs

C51, C59.
-/

namespace Lib842.Props
open Lib842

/-- What can be stored: the numbers fit into a `size_t`, and there is memory to read it again. -/
def Storable (avail : Nat) (k : CacheKey) (bins : List (List Byte)) : Prop :=
  k.deviceNames.length < 2 ^ 64 ∧ bins.length = k.deviceNames.length ∧
  (∀ n ∈ k.deviceNames, n.length < 2 ^ 64 ∧ n.length ≤ avail) ∧ ∀ b ∈ bins, b.length < 2 ^ 64 ∧ b.length ≤ avail

section
variable (e : Endian) (avail : Nat) (k : CacheKey) (bins : List (List Byte))

/-- C51: what was stored is found again, exactly, with the same key; with any other key nothing is. -/
theorem C51_find_stored (h : Storable avail k bins) (k' : CacheKey) :
    cacheFind e avail (some (cacheSet e k bins)) k' = .ok (if k' = k then bins else []) := by
  obtain ⟨h1, h2, h3, h4⟩ := h
  have hm : readMetadata e avail (cacheSet e k bins) = .ok (k, writeBlobs e bins) :=
    (metadata_ok ..).2 ⟨⟨h1, h3⟩, rfl⟩
  unfold cacheFind
  simp only [hm]
  by_cases hk : k' = k
  · subst hk
    have hb : readBlobs e avail k'.deviceNames.length (writeBlobs e bins) = .ok (bins, []) :=
      (blobs_ok ..).2 ⟨h2, h4, (List.append_nil _).symm⟩
    rw [if_neg (fun h => key_ne.1 h rfl), if_pos rfl, hb]
  · rw [if_pos (key_ne.2 hk), if_neg hk]

/-- C51: a file cut at any point, as a crash while writing leaves it, is never used: reading it
fails, or, if the key was complete and is another one, it is not taken. -/
theorem C51_find_truncated (h : Storable avail k bins) (file lost : List Byte)
    (hf : file ++ lost = cacheSet e k bins) (hl : lost ≠ []) (k' : CacheKey) :
    cacheFind e avail (some file) k' = .failure ∨ (k' ≠ k ∧ cacheFind e avail (some file) k' = .ok []) := by
  obtain ⟨h1, h2, h3, h4⟩ := h
  have hm : readMetadata e avail (file ++ lost) = .ok (k, writeBlobs e bins) :=
    (metadata_ok ..).2 ⟨⟨h1, h3⟩, hf⟩
  unfold cacheFind
  cases hs : readMetadata e avail file with
  | failure => exact Or.inl (by simp only [hs])
  | alloc => rw [(stable_metadata e avail).2 _ _ hs] at hm; cases hm
  | ok p =>
    obtain ⟨d, r⟩ := p
    rw [(stable_metadata e avail).1 _ _ _ _ hs] at hm
    simp only [CRes.ok.injEq, Prod.mk.injEq] at hm
    obtain ⟨rfl, hr⟩ := hm
    simp only [hs]
    by_cases hk : k' = d
    · left
      subst hk
      have hb : readBlobs e avail k'.deviceNames.length (r ++ lost) = .ok (bins, []) :=
        (blobs_ok ..).2 ⟨h2, h4, by rw [hr, List.append_nil]⟩
      rw [if_neg (fun h => key_ne.1 h rfl), stable_truncated (stable_blobs ..) hb hl]
    · right
      exact ⟨hk, by rw [if_pos (key_ne.2 hk)]⟩

/-- C51: whatever the file contains, binaries are returned only if the file begins with what storing
them under the same key writes, and then for every device one. -/
theorem C51_find_sound (file : List Byte) (hb : bins ≠ []) (h : cacheFind e avail (some file) k = .ok bins) :
    Storable avail k bins ∧ ∃ rest, file = cacheSet e k bins ++ rest := by
  unfold cacheFind at h
  cases hs : readMetadata e avail file with
  | failure => simp only [hs] at h; cases h
  | alloc => simp only [hs] at h; cases h
  | ok p =>
    obtain ⟨d, r⟩ := p
    simp only [hs] at h
    by_cases hk : k = d
    · subst hk
      rw [if_neg (fun h => key_ne.1 h rfl)] at h
      cases hr : readBlobs e avail k.deviceNames.length r with
      | failure => simp only [hr] at h; cases h
      | alloc => simp only [hr] at h; cases h
      | ok p =>
        obtain ⟨bs, r'⟩ := p
        simp only [hr] at h
        cases h
        obtain ⟨g1, g2, g3⟩ := (blobs_ok ..).1 hr
        obtain ⟨f1, f2⟩ := (metadata_ok ..).1 hs
        refine ⟨⟨f1.1, g1, f1.2, g2⟩, r', ?_⟩
        rw [f2, g3, cacheSet, List.append_assoc]
    · rw [if_pos (key_ne.2 hk)] at h
      cases h
      exact absurd rfl hb

/-- C51: two keys are never stored in the same way, with whatever binaries and whatever follows. -/
theorem C51_stored_once (h : Storable avail k bins) (k' : CacheKey) (bins' : List (List Byte))
    (h' : Storable avail k' bins') (rest rest' : List Byte)
    (hf : cacheSet e k bins ++ rest = cacheSet e k' bins' ++ rest') : k = k' ∧ bins = bins' ∧ rest = rest' := by
  have g1 : readMetadata e avail (cacheSet e k bins ++ rest) = .ok (k, writeBlobs e bins ++ rest) :=
    (metadata_ok ..).2 ⟨⟨h.1, h.2.2.1⟩, by rw [cacheSet, List.append_assoc]⟩
  have g2 : readMetadata e avail (cacheSet e k' bins' ++ rest') = .ok (k', writeBlobs e bins' ++ rest') :=
    (metadata_ok ..).2 ⟨⟨h'.1, h'.2.2.1⟩, by rw [cacheSet, List.append_assoc]⟩
  rw [hf, g2] at g1
  simp only [CRes.ok.injEq, Prod.mk.injEq] at g1
  obtain ⟨rfl, hr⟩ := g1
  have g3 := (blobs_ok e avail k'.deviceNames.length _ rest bins).2 ⟨h.2.1, h.2.2.2, hr⟩
  have g4 := (blobs_ok e avail k'.deviceNames.length _ rest' bins').2 ⟨h'.2.1, h'.2.2.2, rfl⟩
  rw [g4] at g3
  simp only [CRes.ok.injEq, Prod.mk.injEq] at g3
  exact ⟨rfl, g3.1.symm, g3.2.symm⟩

variable (file : Option (List Byte)) (buildBin : List (List Byte) → Bool) (buildSrc : Option (List (List Byte)))
  (writable : Bool)

/-- C51: a program is built from binaries only if the file says that they were stored for this
key, and they build. -/
theorem C51_build_from_cache (bs : List (List Byte)) (f' : Option (List Byte))
    (h : buildProgram e avail file k buildBin buildSrc writable = (.fromCache bs, f')) :
    f' = file ∧ buildBin bs = true ∧ bs ≠ [] ∧ ∃ rest, file = some (cacheSet e k bs ++ rest) := by
  unfold buildProgram at h
  have hsrc : ∀ x, (match buildSrc with
      | none => (BuildRes.buildError, file)
      | some bs => if writable then (.fromSource, some (cacheSet e k bs)) else (.failure, none)) ≠
        (BuildRes.fromCache bs, x) := by
    intro x
    cases buildSrc with
    | none => intro h; cases h
    | some b => cases writable <;> intro h <;> cases h
  cases hf : cacheFind e avail file k with
  | alloc => simp only [hf] at h; cases h
  | failure => simp only [hf] at h; exact absurd h (hsrc _)
  | ok b =>
    simp only [hf] at h
    split at h
    · rename_i hb
      split at h
      · rename_i hbb
        cases h
        refine ⟨rfl, hbb, hb, ?_⟩
        cases file with
        | none => cases hf
        | some f =>
          obtain ⟨-, rest, hr⟩ := C51_find_sound e avail k bs f hb hf
          exact ⟨rest, by rw [hr]⟩
      · exact absurd h (hsrc _)
    · exact absurd h (hsrc _)

/-- C51: after a build from the source the next one with the same key uses the cache. -/
theorem C51_build_twice (f' : Option (List Byte)) (buildSrc' : Option (List (List Byte))) (writable' : Bool)
    (h : buildProgram e avail file k buildBin (some bins) writable = (.fromSource, f')) (hs : Storable avail k bins)
    (hb : bins ≠ []) (hbb : buildBin bins = true) :
    buildProgram e avail f' k buildBin buildSrc' writable' = (.fromCache bins, f') := by
  have hf : f' = some (cacheSet e k bins) := by
    unfold buildProgram at h
    cases hf : cacheFind e avail file k with
    | alloc => simp only [hf] at h; cases h
    | failure =>
      simp only [hf] at h
      cases writable <;> cases h; rfl
    | ok b =>
      simp only [hf] at h
      split at h
      · split at h
        · cases h
        · cases writable <;> cases h; rfl
      · cases writable <;> cases h; rfl
  subst hf
  unfold buildProgram
  simp only [C51_find_stored e avail k bins hs k, if_true]
  rw [if_pos hb, if_pos hbb]

/-- C59, partial: it has the additional hypotheses that the file can be written and that no length
in it exceeds the available memory.  Then a program is built whenever it can be built from the source. -/
theorem C59_cache_not_fatal_partial (hsrc : buildSrc = some bins) (hw : writable = true)
    (ha : cacheFind e avail file k ≠ .alloc) :
    ∃ f', buildProgram e avail file k buildBin buildSrc writable = (.fromSource, f') ∨
      ∃ bs, buildProgram e avail file k buildBin buildSrc writable = (.fromCache bs, f') := by
  subst hsrc hw
  unfold buildProgram
  cases hf : cacheFind e avail file k with
  | alloc => exact absurd hf ha
  | failure => exact ⟨_, Or.inl rfl⟩
  | ok b =>
    simp only
    split
    · split
      · exact ⟨_, Or.inr ⟨_, rfl⟩⟩
      · exact ⟨_, Or.inl rfl⟩
    · exact ⟨_, Or.inl rfl⟩

/-- C59, partial: in particular if the file does not exist, or is what an earlier build left, complete
or cut at any point, for whatever key. -/
theorem C59_own_file_not_fatal_partial (hsrc : buildSrc = some bins) (hw : writable = true) (k' : CacheKey)
    (bins' : List (List Byte)) (hs : Storable avail k' bins')
    (hfile : file = none ∨ ∃ f lost, file = some f ∧ f ++ lost = cacheSet e k' bins') :
    ∃ f', buildProgram e avail file k buildBin buildSrc writable = (.fromSource, f') ∨
      ∃ bs, buildProgram e avail file k buildBin buildSrc writable = (.fromCache bs, f') := by
  refine C59_cache_not_fatal_partial e avail k bins file buildBin buildSrc writable hsrc hw ?_
  rcases hfile with rfl | ⟨f, lost, rfl, hf⟩
  · intro h; cases h
  · by_cases hl : lost = []
    · subst hl
      rw [List.append_nil] at hf
      subst hf
      rw [C51_find_stored e avail k' bins' hs k]
      intro h; cases h
    · rcases C51_find_truncated e avail k' bins' hs f lost hf hl k with h | ⟨-, h⟩ <;>
      · rw [h]; intro h; cases h

end

/-! ## Instances -/

/-- Two devices, with different binaries. -/
def demoKey : CacheKey := ⟨0x12345678, 65536, 131072, 1, [[71, 80, 85], [67, 80, 85, 48]]⟩

def demoBins : List (List Byte) := [[1, 2, 3, 4, 5], []]

theorem C51_instance : Storable 4096 demoKey demoBins ∧
    cacheFind .little 4096 (some (cacheSet .little demoKey demoBins)) demoKey = .ok demoBins ∧
    cacheFind .big 4096 (some (cacheSet .big demoKey demoBins)) { demoKey with inputFormat := 2 } = .ok [] ∧
    cacheFind .little 4096 (some ((cacheSet .little demoKey demoBins).take 68)) demoKey = .failure := by
  refine ⟨by unfold Storable; decide, ?_, ?_, ?_⟩ <;> decide +kernel

/-- C59 is false: the program was built, but an exception escapes if the cache cannot be written. -/
theorem C59_unwritable_false :
    buildProgram .little 4096 none demoKey (fun _ => true) (some demoBins) false = (.failure, none) := by
  decide +kernel

/-- C59 is false: a file with an excessive length makes every build fail, and stays. -/
theorem C59_corrupt_false : ∃ file : List Byte, file.length = 40 ∧
    buildProgram .little (2 ^ 62) (some file) demoKey (fun _ => true) (some demoBins) true = (.alloc, some file) :=
  ⟨List.replicate 24 0 ++ [1, 0, 0, 0, 0, 0, 0, 0] ++ [0, 0, 0, 0, 0, 0, 0, 128], by decide +kernel, by decide +kernel⟩

end Lib842.Props
