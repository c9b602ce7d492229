import Verif.Model.ClCache
import Verif.Proofs.Words
/-!
# The cache of compiled OpenCL programs: helper lemmas
-/

namespace Lib842

theorem readBytes_zero {m : List Byte} {k : Nat} : readBytes m 0 k = if k ≤ m.length then some (m.take k) else none := by
  by_cases h : k ≤ m.length
  · rw [if_pos h, readBytes_ok (by omega)]; rfl
  · rw [if_neg h, readBytes_none (by omega)]

theorem load64_some {e : Endian} {m : List Byte} {v : BitVec 64} :
    load64 e m 0 = some v ↔ 8 ≤ m.length ∧ m.take 8 = wordBytes64 e v := by
  unfold load64
  rw [readBytes_zero]
  by_cases hl : 8 ≤ m.length
  · rw [if_pos hl]
    obtain ⟨a, b, c, d, f, g, h, k, ht⟩ := list_len8 (l := m.take 8) (by rw [List.length_take]; omega)
    rw [ht]
    simp only [hl, true_and, Option.some.injEq]
    constructor
    · intro hv
      subst hv
      cases e <;> simp only [wordBytes64, List.cons.injEq, and_true] <;>
      · refine ⟨?_, ?_, ?_, ?_, ?_, ?_, ?_, ?_⟩ <;>
        · apply BitVec.eq_of_getLsbD_eq
          intro i hi
          simp only [BitVec.getLsbD_append, BitVec.getLsbD_extractLsb']
          interval_cases i <;> simp
    · intro hv
      have hv' : v = v.extractLsb' 56 8 ++ v.extractLsb' 48 8 ++ v.extractLsb' 40 8 ++
          v.extractLsb' 32 8 ++ v.extractLsb' 24 8 ++ v.extractLsb' 16 8 ++ v.extractLsb' 8 8 ++
          v.extractLsb' 0 8 := by
        apply BitVec.eq_of_getLsbD_eq
        intro i hi
        simp only [BitVec.getLsbD_append, BitVec.getLsbD_extractLsb']
        interval_cases i <;> simp
      cases e <;>
      · simp only [wordBytes64, List.cons.injEq, and_true] at hv
        obtain ⟨rfl, rfl, rfl, rfl, rfl, rfl, rfl, rfl⟩ := hv
        exact hv'.symm
  · rw [if_neg hl]
    simp only [hl, false_and]
    simp

theorem load32_some {e : Endian} {m : List Byte} {v : BitVec 32} :
    load32 e m 0 = some v ↔ 4 ≤ m.length ∧ m.take 4 = wordBytes32 e v := by
  unfold load32
  rw [readBytes_zero]
  by_cases hl : 4 ≤ m.length
  · rw [if_pos hl]
    obtain ⟨a, b, c, d, ht⟩ := list_len4 (l := m.take 4) (by rw [List.length_take]; omega)
    rw [ht]
    simp only [hl, true_and, Option.some.injEq]
    constructor
    · intro hv
      subst hv
      cases e <;> simp only [wordBytes32, List.cons.injEq, and_true] <;>
      · refine ⟨?_, ?_, ?_, ?_⟩ <;>
        · apply BitVec.eq_of_getLsbD_eq
          intro i hi
          simp only [BitVec.getLsbD_append, BitVec.getLsbD_extractLsb']
          interval_cases i <;> simp
    · intro hv
      have hv' : v = v.extractLsb' 24 8 ++ v.extractLsb' 16 8 ++ v.extractLsb' 8 8 ++
          v.extractLsb' 0 8 := by
        apply BitVec.eq_of_getLsbD_eq
        intro i hi
        simp only [BitVec.getLsbD_append, BitVec.getLsbD_extractLsb']
        interval_cases i <;> simp
      cases e <;>
      · simp only [wordBytes32, List.cons.injEq, and_true] at hv
        obtain ⟨rfl, rfl, rfl, rfl⟩ := hv
        exact hv'.symm
  · rw [if_neg hl]
    simp only [hl, false_and]
    simp

theorem load64_none {e : Endian} {m : List Byte} (h : load64 e m 0 = none) : m.length < 8 := by
  rcases Nat.lt_or_ge m.length 8 with hl | hl
  · exact hl
  · exfalso
    unfold load64 at h
    rw [readBytes_zero, if_pos hl] at h
    obtain ⟨a, b, c, d, f, g, h', k, ht⟩ := list_len8 (l := m.take 8) (by rw [List.length_take]; omega)
    rw [ht] at h
    cases h

theorem load32_none {e : Endian} {m : List Byte} (h : load32 e m 0 = none) : m.length < 4 := by
  rcases Nat.lt_or_ge m.length 4 with hl | hl
  · exact hl
  · exfalso
    unfold load32 at h
    rw [readBytes_zero, if_pos hl] at h
    obtain ⟨a, b, c, d, ht⟩ := list_len4 (l := m.take 4) (by rw [List.length_take]; omega)
    rw [ht] at h
    cases h

/-! ## Readers -/

/-- A longer file does not change what was read from the shorter one. -/
def Rd.Stable {α : Type} (x : Rd α) : Prop :=
  (∀ s a r t, x s = .ok (a, r) → x (s ++ t) = .ok (a, r ++ t)) ∧ ∀ s t, x s = .alloc → x (s ++ t) = .alloc

theorem stable_pure {α : Type} (a : α) : (Rd.pure a).Stable :=
  ⟨fun s a r t h => by cases h; rfl, fun s t h => by cases h⟩

theorem stable_bind {α β : Type} {x : Rd α} {f : α → Rd β} (hx : x.Stable) (hf : ∀ a, (f a).Stable) :
    (Rd.bind x f).Stable := by
  constructor
  · intro s a r t h
    unfold Rd.bind at h ⊢
    cases hs : x s with
    | ok p =>
      obtain ⟨b, r'⟩ := p
      rw [hs] at h
      rw [hx.1 s b r' t hs]
      exact (hf b).1 r' a r t h
    | failure => rw [hs] at h; cases h
    | alloc => rw [hs] at h; cases h
  · intro s t h
    unfold Rd.bind at h ⊢
    cases hs : x s with
    | ok p =>
      obtain ⟨b, r'⟩ := p
      rw [hs] at h
      rw [hx.1 s b r' t hs]
      exact (hf b).2 r' t h
    | failure => rw [hs] at h; cases h
    | alloc => rw [hx.2 s t hs]

theorem stable_bytes (n : Nat) : (Rd.bytes n).Stable := by
  constructor
  · intro s a r t h
    unfold Rd.bytes at h ⊢
    split at h
    · rename_i hn
      cases h
      rw [if_pos (by rw [List.length_append]; omega), List.take_append_of_le_length hn, List.drop_append_of_le_length hn]
    · cases h
  · intro s t h
    unfold Rd.bytes at h
    split at h <;> cases h

theorem size_ok {e : Endian} {s r : List Byte} {v : BitVec 64} : Rd.size e s = .ok (v, r) ↔ s = wordBytes64 e v ++ r := by
  unfold Rd.size
  constructor
  · intro h
    cases hl : load64 e s 0 with
    | none => rw [hl] at h; cases h
    | some w =>
      rw [hl] at h
      cases h
      rw [← (load64_some.1 hl).2, List.take_append_drop]
  · rintro rfl
    have hlen : (wordBytes64 e v).length = 8 := length_wordBytes64 e v
    have : load64 e (wordBytes64 e v ++ r) 0 = some v := by
      rw [load64_some, List.length_append, hlen, List.take_append_of_le_length (by omega), List.take_of_length_le (by omega)]
      exact ⟨by omega, rfl⟩
    rw [this]
    simp only [CRes.ok.injEq, Prod.mk.injEq, true_and]
    rw [← hlen, List.drop_left]

theorem word_ok {e : Endian} {s r : List Byte} {v : BitVec 32} : Rd.word e s = .ok (v, r) ↔ s = wordBytes32 e v ++ r := by
  unfold Rd.word
  constructor
  · intro h
    cases hl : load32 e s 0 with
    | none => rw [hl] at h; cases h
    | some w =>
      rw [hl] at h
      cases h
      rw [← (load32_some.1 hl).2, List.take_append_drop]
  · rintro rfl
    have hlen : (wordBytes32 e v).length = 4 := length_wordBytes32 e v
    have : load32 e (wordBytes32 e v ++ r) 0 = some v := by
      rw [load32_some, List.length_append, hlen, List.take_append_of_le_length (by omega), List.take_of_length_le (by omega)]
      exact ⟨by omega, rfl⟩
    rw [this]
    simp only [CRes.ok.injEq, Prod.mk.injEq, true_and]
    rw [← hlen, List.drop_left]

theorem stable_size (e : Endian) : (Rd.size e).Stable := by
  constructor
  · intro s a r t h
    rw [size_ok] at h ⊢
    rw [h, List.append_assoc]
  · intro s t h
    unfold Rd.size at h
    split at h <;> cases h

theorem stable_word (e : Endian) : (Rd.word e).Stable := by
  constructor
  · intro s a r t h
    rw [word_ok] at h ⊢
    rw [h, List.append_assoc]
  · intro s t h
    unfold Rd.word at h
    split at h <;> cases h

theorem stable_alloc (avail n : Nat) : (Rd.alloc avail n).Stable := by
  constructor
  · intro s a r t h
    unfold Rd.alloc at h ⊢
    split at h
    · rename_i hn
      cases h; rw [if_pos hn]
    · cases h
  · intro s t h
    unfold Rd.alloc at h ⊢
    split at h
    · cases h
    · rename_i hn
      rw [if_neg hn]

theorem stable_blobs (e : Endian) (avail : Nat) (n : Nat) : (readBlobs e avail n).Stable := by
  induction n with
  | zero => exact stable_pure _
  | succ n ih =>
    exact stable_bind (stable_size e) fun l => stable_bind (stable_alloc avail _) fun _ =>
      stable_bind (stable_bytes _) fun b => stable_bind ih fun bs => stable_pure _

theorem stable_metadata (e : Endian) (avail : Nat) : (readMetadata e avail).Stable :=
  stable_bind (stable_size e) fun _ => stable_bind (stable_size e) fun _ => stable_bind (stable_word e) fun _ =>
    stable_bind (stable_word e) fun _ => stable_bind (stable_size e) fun _ =>
    stable_bind (stable_blobs e avail _) fun _ => stable_pure _

/-- A proper prefix of a file that is read completely cannot be read. -/
theorem stable_truncated {α : Type} {x : Rd α} (hx : x.Stable) {s t : List Byte} {a : α} (h : x (s ++ t) = .ok (a, []))
    (ht : t ≠ []) : x s = .failure := by
  cases hs : x s with
  | failure => rfl
  | alloc => rw [hx.2 s t hs] at h; cases h
  | ok p =>
    obtain ⟨b, r⟩ := p
    rw [hx.1 s b r t hs] at h
    simp only [CRes.ok.injEq, Prod.mk.injEq, List.append_eq_nil_iff] at h
    exact absurd h.2.2 ht

theorem bind_ok {α β : Type} {x : Rd α} {f : α → Rd β} {s r : List Byte} {b : β} :
    Rd.bind x f s = .ok (b, r) ↔ ∃ a s', x s = .ok (a, s') ∧ f a s' = .ok (b, r) := by
  unfold Rd.bind
  constructor
  · intro h
    cases hs : x s with
    | ok p => rw [hs] at h; exact ⟨p.1, p.2, rfl, h⟩
    | failure => rw [hs] at h; cases h
    | alloc => rw [hs] at h; cases h
  · rintro ⟨a, s', h1, h2⟩
    rw [h1]; exact h2

theorem alloc_ok {avail n : Nat} {s r : List Byte} : Rd.alloc avail n s = .ok ((), r) ↔ n ≤ avail ∧ r = s := by
  unfold Rd.alloc
  split
  · rename_i h
    simp only [CRes.ok.injEq, Prod.mk.injEq, true_and, h]
    exact eq_comm
  · rename_i h
    simp [h]

theorem bytes_ok {n : Nat} {s r b : List Byte} : Rd.bytes n s = .ok (b, r) ↔ b.length = n ∧ s = b ++ r := by
  unfold Rd.bytes
  constructor
  · intro h
    split at h
    · cases h
      exact ⟨by rw [List.length_take]; omega, (List.take_append_drop _ _).symm⟩
    · cases h
  · rintro ⟨rfl, rfl⟩
    rw [if_pos (by rw [List.length_append]; omega), List.take_left, List.drop_left]

/-- Lists that can be written and read again. -/
def BlobsOk (avail : Nat) (bs : List (List Byte)) : Prop := ∀ b ∈ bs, b.length < 2 ^ 64 ∧ b.length ≤ avail

theorem blobs_ok (e : Endian) (avail : Nat) (n : Nat) : ∀ (s r : List Byte) (bs : List (List Byte)),
    readBlobs e avail n s = .ok (bs, r) ↔ bs.length = n ∧ BlobsOk avail bs ∧ s = writeBlobs e bs ++ r := by
  induction n with
  | zero =>
    intro s r bs
    constructor
    · intro h
      cases h
      exact ⟨rfl, fun _ h => (by cases h), rfl⟩
    · rintro ⟨h1, -, h2⟩
      rw [List.length_eq_zero_iff] at h1
      subst h1
      rw [h2]; rfl
  | succ n ih =>
    intro s r bs
    show Rd.bind _ _ s = _ ↔ _
    rw [bind_ok]
    constructor
    · rintro ⟨l, s1, h1, h2⟩
      obtain ⟨_, s2, h3, h2b⟩ := bind_ok.1 h2
      obtain ⟨b, s3, h4, h2c⟩ := bind_ok.1 h2b
      obtain ⟨bs', s4, h5, h2d⟩ := bind_ok.1 h2c
      obtain ⟨h3, rfl⟩ := alloc_ok.1 h3
      obtain ⟨h4, rfl⟩ := bytes_ok.1 h4
      obtain ⟨g1, g2, rfl⟩ := (ih _ _ _).1 h5
      rw [size_ok] at h1
      clear h2 h2b h2c
      cases h2d
      have hl := l.isLt
      refine ⟨by rw [List.length_cons, g1], ?_, ?_⟩
      · intro x hx
        rcases List.mem_cons.1 hx with rfl | hx
        · omega
        · exact g2 x hx
      · have hb : BitVec.ofNat 64 b.length = l := by
          rw [show b.length = l.toNat by omega, BitVec.ofNat_toNat, BitVec.setWidth_eq]
        rw [h1]
        show _ = (wordBytes64 e (BitVec.ofNat 64 b.length) ++ b) ++ writeBlobs e bs' ++ r
        rw [hb]
        simp only [List.append_assoc]
    · rintro ⟨h1, h2, h3⟩
      cases bs with
      | nil => cases h1
      | cons b bs =>
        obtain ⟨g1, g2⟩ := h2 b List.mem_cons_self
        rw [writeBlobs, List.flatMap_cons, List.append_assoc, List.append_assoc] at h3
        have hl : (BitVec.ofNat 64 b.length).toNat = b.length := by
          rw [BitVec.toNat_ofNat, Nat.mod_eq_of_lt g1]
        refine ⟨_, _, size_ok.2 h3, bind_ok.2 ⟨(), _, alloc_ok.2 ⟨by rw [hl]; exact g2, rfl⟩, bind_ok.2
          ⟨b, _, bytes_ok.2 ⟨hl.symm, rfl⟩, bind_ok.2 ⟨bs, r, (ih _ _ _).2 ⟨by simpa using h1,
            fun x hx => h2 x (List.mem_cons_of_mem _ hx), rfl⟩, rfl⟩⟩⟩⟩

/-- Keys that can be written and read again. -/
def KeyOk (avail : Nat) (k : CacheKey) : Prop := k.deviceNames.length < 2 ^ 64 ∧ BlobsOk avail k.deviceNames

theorem metadata_ok (e : Endian) (avail : Nat) (s r : List Byte) (k : CacheKey) :
    readMetadata e avail s = .ok (k, r) ↔ KeyOk avail k ∧ s = writeMetadata e k ++ r := by
  show Rd.bind _ _ s = _ ↔ _
  rw [bind_ok]
  constructor
  · rintro ⟨v1, s1, h1, h⟩
    obtain ⟨v2, s2, h2, h⟩ := bind_ok.1 h
    obtain ⟨v3, s3, h3, h⟩ := bind_ok.1 h
    obtain ⟨v4, s4, h4, h⟩ := bind_ok.1 h
    obtain ⟨v5, s5, h5, h⟩ := bind_ok.1 h
    obtain ⟨v6, s6, h6, h⟩ := bind_ok.1 h
    cases h
    rw [size_ok] at h1 h2 h5
    rw [word_ok] at h3 h4
    obtain ⟨g1, g2, g3⟩ := (blobs_ok _ _ _ _ _ _).1 h6
    refine ⟨⟨by show v6.length < _; rw [g1]; exact v5.isLt, g2⟩, ?_⟩
    unfold writeMetadata
    show _ = wordBytes64 e v1 ++ wordBytes64 e v2 ++ wordBytes32 e v3 ++ wordBytes32 e v4 ++
      wordBytes64 e (BitVec.ofNat 64 v6.length) ++ writeBlobs e v6 ++ r
    rw [h1, h2, h3, h4, h5, g3, g1, BitVec.ofNat_toNat, BitVec.setWidth_eq]
    simp only [List.append_assoc]
  · rintro ⟨⟨h1, h2⟩, h3⟩
    unfold writeMetadata at h3
    simp only [List.append_assoc] at h3
    have hl : (BitVec.ofNat 64 k.deviceNames.length).toNat = k.deviceNames.length := by
      rw [BitVec.toNat_ofNat, Nat.mod_eq_of_lt h1]
    exact ⟨_, _, size_ok.2 h3, bind_ok.2 ⟨_, _, size_ok.2 rfl, bind_ok.2 ⟨_, _, word_ok.2 rfl, bind_ok.2
      ⟨_, _, word_ok.2 rfl, bind_ok.2 ⟨_, _, size_ok.2 rfl, bind_ok.2 ⟨_, _,
        (blobs_ok _ _ _ _ _ _).2 ⟨hl.symm, h2, rfl⟩, rfl⟩⟩⟩⟩⟩⟩

theorem key_ne {k d : CacheKey} :
    (k.chunkSize ≠ d.chunkSize ∨ k.chunkStride ≠ d.chunkStride ∨ k.inputFormat ≠ d.inputFormat ∨
      k.sourceHash ≠ d.sourceHash ∨ k.deviceNames ≠ d.deviceNames) ↔ k ≠ d := by
  obtain ⟨a, b, c, d', f⟩ := k
  obtain ⟨a', b', c', d'', f'⟩ := d
  simp only [ne_eq, CacheKey.mk.injEq, not_and_or]
  tauto

end Lib842
