import Verif.Model.ClOptions
import Verif.SpecClOptions
/-!
# Helper lemmas about the options for compiling the OpenCL kernel
-/

namespace Lib842
open Spec

/-! ## Words and definitions -/

theorem splitOn_self (c : Char) (xs : List Char) : splitOn c (c :: xs) = [] :: splitOn c xs := by
  rw [splitOn, if_pos rfl]

theorem splitOn_prefix {c : Char} {s : List Char} {x : List Char} {xs : List (List Char)} (hs : splitOn c s = x :: xs) :
    ∀ w : List Char, c ∉ w → splitOn c (w ++ s) = (w ++ x) :: xs
  | [], _ => by simpa using hs
  | a :: w, h => by
    have h1 : a ≠ c := fun hc => h (by simp [hc])
    rw [List.cons_append, splitOn, if_neg h1, splitOn_prefix hs w (fun hc => h (List.mem_cons_of_mem _ hc))]
    rfl

theorem nameValue_append (v : List Char) : ∀ name : List Char, '=' ∉ name → nameValue (name ++ '=' :: v) = some (name, v)
  | [], _ => by simp [nameValue]
  | a :: w, h => by
    have h1 : a ≠ '=' := fun hc => h (by simp [hc])
    rw [List.cons_append, nameValue, if_neg h1, nameValue_append v w (fun hc => h (List.mem_cons_of_mem _ hc))]
    rfl

/-- The text for some definitions, with a space in front -/
def renderDefs (ds : List (List Char × List Char)) : List Char :=
  ds.flatMap fun d => ' ' :: '-' :: 'D' :: ' ' :: (d.1 ++ '=' :: d.2)

def PlainDef (d : List Char × List Char) : Prop := ' ' ∉ d.1 ∧ ' ' ∉ d.2 ∧ '=' ∉ d.1

theorem plainDef_mk {n v : List Char} (h1 : ' ' ∉ n ∧ '=' ∉ n) (h2 : ' ' ∉ v) : PlainDef (n, v) := ⟨h1.1, h2, h1.2⟩

theorem splitOn_render : ∀ ds : List (List Char × List Char), (∀ d ∈ ds, PlainDef d) →
    splitOn ' ' (renderDefs ds) = [] :: ds.flatMap (fun d => [['-', 'D'], d.1 ++ '=' :: d.2])
  | [], _ => rfl
  | d :: ds, h => by
    have ih := splitOn_render ds fun d' hd => h d' (List.mem_cons_of_mem _ hd)
    obtain ⟨h1, h2, h3⟩ := h d (List.mem_cons_self ..)
    have hw := splitOn_prefix ih (d.1 ++ '=' :: d.2) (by simp [h1, h2])
    have hd := splitOn_self ' ' ((d.1 ++ '=' :: d.2) ++ renderDefs ds)
    rw [hw] at hd
    have hdd := splitOn_prefix hd ['-', 'D'] (by decide)
    have : renderDefs (d :: ds) = ' ' :: (['-', 'D'] ++ ' ' :: ((d.1 ++ '=' :: d.2) ++ renderDefs ds)) := by
      simp [renderDefs]
    rw [this, splitOn_self, hdd]
    simp

theorem definitions_words : ∀ ds : List (List Char × List Char), (∀ d ∈ ds, PlainDef d) →
    definitions (ds.flatMap fun d => [['-', 'D'], d.1 ++ '=' :: d.2]) = some ds
  | [], _ => rfl
  | d :: ds, h => by
    have ih := definitions_words ds fun d' hd => h d' (List.mem_cons_of_mem _ hd)
    obtain ⟨h1, h2, h3⟩ := h d (List.mem_cons_self ..)
    simp only [List.flatMap_cons, List.cons_append, List.nil_append]
    rw [definitions, if_pos rfl, nameValue_append _ _ h3, ih]
    rfl

theorem macroOf_render {o : List Char} {ds : List (List Char × List Char)} (ho : ' ' :: o = renderDefs ds) (h : ∀ d ∈ ds, PlainDef d) (name : String) :
    macroOf o name = ds.lookup name.toList := by
  have h1 := splitOn_render ds h
  rw [← ho, splitOn_self] at h1
  have h2 := List.cons.inj h1 |>.2
  unfold macroOf
  rw [h2, definitions_words ds h]
  rfl

/-! ## Numbers -/

theorem digitVal_digitChar : ∀ {k : Nat}, k < 10 → digitVal (Nat.digitChar k) = some k := by decide

theorem digitChar_ne_zero : ∀ {k : Nat}, k < 10 → k ≠ 0 → Nat.digitChar k ≠ '0' := by decide

theorem numberFrom_append (xs ys : List Char) : ∀ n, numberFrom n (xs ++ ys) = (numberFrom n xs).bind fun m => numberFrom m ys := by
  induction xs with
  | nil => intro n; rfl
  | cons c cs ih =>
    intro n
    rw [List.cons_append, numberFrom, numberFrom]
    cases digitVal c with
    | none => rfl
    | some v => exact ih _

theorem digitsRev_spec (f : Nat) : ∀ n, n < 10 ^ f → 1 ≤ f →
    numberFrom 0 (digitsRev f n).reverse = some n ∧ (∀ c ∈ digitsRev f n, ∃ k, k < 10 ∧ c = Nat.digitChar k) ∧
      (n = 0 → digitsRev f n = ['0']) ∧ (n ≠ 0 → ∃ c cs, (digitsRev f n).reverse = c :: cs ∧ c ≠ '0') ∧
      (∀ g, 1 ≤ g → ((digitsRev f n).length ≤ g ↔ n < 10 ^ g)) := by
  induction f with
  | zero => intro n _ h; omega
  | succ f ih =>
    intro n hn _
    have hm : n % 10 < 10 := Nat.mod_lt _ (by omega)
    rw [digitsRev]
    by_cases h10 : n < 10
    · rw [if_pos h10, Nat.mod_eq_of_lt h10]
      refine ⟨?_, ?_, ?_, ?_, ?_⟩
      · simp [numberFrom, digitVal_digitChar h10]
      · intro c hc; simp at hc; exact ⟨n, h10, hc⟩
      · rintro rfl; rfl
      · intro h0; exact ⟨_, [], rfl, digitChar_ne_zero h10 h0⟩
      · intro g hg
        have : 10 ^ 1 ≤ 10 ^ g := Nat.pow_le_pow_right (by omega) hg
        simp only [List.length_singleton]
        omega
    · rw [if_neg h10]
      have hf : 1 ≤ f := by
        rcases Nat.eq_zero_or_pos f with rfl | h
        · simp at hn; omega
        · exact h
      have hd : n / 10 < 10 ^ f := by
        rw [Nat.pow_succ] at hn; omega
      obtain ⟨e1, e2, e3, e4, e5⟩ := ih (n / 10) hd hf
      refine ⟨?_, ?_, ?_, ?_, ?_⟩
      · rw [List.reverse_cons, numberFrom_append, e1]
        simp only [Option.bind_some, numberFrom, digitVal_digitChar hm]
        show some _ = some _
        congr 1
        omega
      · intro c hc
        rcases List.mem_cons.1 hc with rfl | h
        · exact ⟨_, hm, rfl⟩
        · exact e2 c h
      · intro h; omega
      · intro _
        obtain ⟨c, cs, h1, h2⟩ := e4 (by omega)
        exact ⟨c, cs ++ [Nat.digitChar (n % 10)], by rw [List.reverse_cons, h1]; rfl, h2⟩
      · intro g hg
        rcases Nat.eq_or_lt_of_le hg with h | h
        · subst h
          simp only [List.length_cons]
          have : 0 < (digitsRev f (n / 10)).length := by
            obtain ⟨c, cs, h1, -⟩ := e4 (by omega)
            have := congrArg List.length h1
            simp at this
            omega
          omega
        · obtain ⟨g, rfl⟩ : ∃ g', g = g' + 1 := ⟨g - 1, by omega⟩
          have := e5 g (by omega)
          rw [List.length_cons, Nat.pow_succ]
          omega

theorem number_of_ne {c : Char} (h : c ≠ '0') (cs : List Char) : number (c :: cs) = numberFrom 0 (c :: cs) := by
  unfold number
  split
  · contradiction
  · rename_i h'; cases h'; exact absurd rfl h
  · rename_i h'; cases h'; exact absurd rfl h
  · rfl

theorem number_digits {n : Nat} (h : n < 10 ^ 20) : number (digitsRev 20 n).reverse = some n := by
  obtain ⟨e1, -, e3, e4, -⟩ := digitsRev_spec 20 n h (by omega)
  by_cases h0 : n = 0
  · rw [e3 h0, h0]; rfl
  · obtain ⟨c, cs, h1, h2⟩ := e4 h0
    rw [h1] at e1 ⊢
    rw [number_of_ne h2, e1]

/-- No separator is written for `n`. -/
def NumPunct.Plain (p : NumPunct) (n : Nat) : Prop := ∀ g gs, p.grouping = g :: gs → g = 0 ∨ n < 10 ^ g

theorem putNumber_plain {p : NumPunct} {n : Nat} (hn : n < 10 ^ 20) (h : p.Plain n) : putNumber p n = (digitsRev 20 n).reverse := by
  unfold putNumber
  congr 1
  cases hg : p.grouping with
  | nil => rfl
  | cons g gs =>
    rw [groupRev]
    rcases h g gs hg with h0 | hlt
    · rw [if_pos (.inl h0)]
    · by_cases h0 : g = 0
      · rw [if_pos (.inl h0)]
      · rw [if_pos (.inr (((digitsRev_spec 20 n hn (by omega)).2.2.2.2 g (by omega)).2 hlt))]

theorem number_putNumber {p : NumPunct} {n : Nat} (hn : n < 10 ^ 20) (h : p.Plain n) : number (putNumber p n) = some n := by
  rw [putNumber_plain hn h, number_digits hn]

theorem mem_groupRev (sep : Char) (f : Nat) : ∀ gs ds c, c ∈ groupRev sep f gs ds → c = sep ∨ c ∈ ds := by
  induction f with
  | zero => intro gs ds c h; rw [groupRev] at h; exact .inr h
  | succ f ih =>
    intro gs ds c h
    cases gs with
    | nil => rw [groupRev] at h; exact .inr h; simp
    | cons g gs =>
      rw [groupRev] at h
      split at h
      · exact .inr h
      · rcases List.mem_append.1 h with h | h
        · exact .inr (List.mem_of_mem_take h)
        · rcases List.mem_cons.1 h with h | h
          · exact .inl h
          · rcases ih _ _ _ h with h | h
            · exact .inl h
            · exact .inr (List.mem_of_mem_drop h)

theorem mem_putNumber {p : NumPunct} {n : Nat} (hn : n < 10 ^ 20) {c : Char} (h : c ∈ putNumber p n) :
    c = p.sep ∨ ∃ k, k < 10 ∧ c = Nat.digitChar k := by
  unfold putNumber at h
  rcases mem_groupRev _ _ _ _ _ (List.mem_reverse.1 h) with h | h
  · exact .inl h
  · exact .inr ((digitsRev_spec 20 n hn (by omega)).2.1 c h)

theorem digitChar_ne : ∀ {k : Nat}, k < 10 → Nat.digitChar k ≠ ' ' ∧ Nat.digitChar k ≠ ',' := by decide

theorem space_putNumber {p : NumPunct} (hs : p.sep ≠ ' ') {n : Nat} (hn : n < 10 ^ 20) : ' ' ∉ putNumber p n := by
  intro h
  rcases mem_putNumber hn h with h | ⟨k, hk, h⟩
  · exact hs h.symm
  · exact (digitChar_ne hk).1 h.symm

theorem numberFrom_sep {s : Char} (hs : digitVal s = none) : ∀ (xs : List Char) (n : Nat), s ∈ xs → numberFrom n xs = none
  | [], _, h => by cases h
  | c :: cs, n, h => by
    rw [numberFrom]
    rcases List.mem_cons.1 h with rfl | h
    · rw [hs]; rfl
    · cases digitVal c with
      | none => rfl
      | some v => exact numberFrom_sep hs cs _ h

theorem number_sep {s : Char} (hs : digitVal s = none) {xs : List Char} (h : s ∈ xs) : number xs = none := by
  unfold number
  split
  · rfl
  · simp at h; subst h; cases hs
  · rfl
  · exact numberFrom_sep hs _ 0 h

theorem sep_putNumber {p : NumPunct} {n : Nat} (hn : n < 10 ^ 20) (h : ¬ p.Plain n) : p.sep ∈ putNumber p n := by
  unfold NumPunct.Plain at h
  unfold putNumber
  rw [List.mem_reverse]
  cases hg : p.grouping with
  | nil => exact absurd (fun g gs hc => by rw [hg] at hc; cases hc) h
  | cons g gs =>
    have hne : ¬ (g = 0 ∨ n < 10 ^ g) := fun hc => h fun g' gs' hc' => by
      rw [hg] at hc'; cases hc'; exact hc
    rw [not_or] at hne
    rw [groupRev, if_neg]
    · simp
    · rintro (h0 | hl)
      · exact hne.1 h0
      · exact hne.2 (((digitsRev_spec 20 n hn (by omega)).2.2.2.2 g (by omega)).1 hl)

theorem number_putNumber_iff {p : NumPunct} (hs : digitVal p.sep = none) {n : Nat} (hn : n < 10 ^ 20) :
    number (putNumber p n) = some n ↔ p.Plain n := by
  constructor
  · intro h
    by_cases hp : p.Plain n
    · exact hp
    · rw [number_sep hs (sep_putNumber hn hp)] at h; cases h
  · exact number_putNumber hn

/-! ## The options -/

theorem size_lt (n : BitVec 64) : n.toNat < 10 ^ 20 := Nat.lt_of_lt_of_le n.isLt (by decide)

/-- The definitions that the options make -/
def optionDefs (p : NumPunct) (cs st : BitVec 64) (fmt : ClFormat) : List (List Char × List Char) :=
  [("CL842_CHUNK_SIZE".toList, putNumber p cs.toNat), ("CL842_CHUNK_STRIDE".toList, putNumber p st.toNat),
    ("EINVAL".toList, putNumber p 22), ("ENOSPC".toList, putNumber p 28)] ++
  (if fmt = .maybe ∨ fmt = .inplace then [("LIB842_COMPRESSED_CHUNK_MARKER_DEF".toList, '{' :: (putMarker p chunkMarker ++ ['}']))] else []) ++
  (if fmt = .maybe then [("USE_MAYBE_COMPRESSED_CHUNKS".toList, ['1'])]
   else if fmt = .inplace then [("USE_INPLACE_COMPRESSED_CHUNKS".toList, ['1'])] else [])

theorem buildOptions_render (p : NumPunct) (cs st : BitVec 64) (fmt : ClFormat) :
    ' ' :: buildOptions p cs st fmt = renderDefs (optionDefs p cs st fmt) := by
  have h1 : "-D CL842_CHUNK_SIZE=".toList = '-' :: 'D' :: ' ' :: ("CL842_CHUNK_SIZE".toList ++ ['=']) := by decide
  have h2 : " -D CL842_CHUNK_STRIDE=".toList = ' ' :: '-' :: 'D' :: ' ' :: ("CL842_CHUNK_STRIDE".toList ++ ['=']) := by decide
  have h3 : " -D EINVAL=".toList = ' ' :: '-' :: 'D' :: ' ' :: ("EINVAL".toList ++ ['=']) := by decide
  have h4 : " -D ENOSPC=".toList = ' ' :: '-' :: 'D' :: ' ' :: ("ENOSPC".toList ++ ['=']) := by decide
  have h5 : " -D LIB842_COMPRESSED_CHUNK_MARKER_DEF={".toList =
    ' ' :: '-' :: 'D' :: ' ' :: ("LIB842_COMPRESSED_CHUNK_MARKER_DEF".toList ++ ['=', '{']) := by decide
  have h6 : " -D USE_MAYBE_COMPRESSED_CHUNKS=1".toList = ' ' :: '-' :: 'D' :: ' ' :: ("USE_MAYBE_COMPRESSED_CHUNKS".toList ++ ['=', '1']) := by
    decide
  have h7 : " -D USE_INPLACE_COMPRESSED_CHUNKS=1".toList =
    ' ' :: '-' :: 'D' :: ' ' :: ("USE_INPLACE_COMPRESSED_CHUNKS".toList ++ ['=', '1']) := by decide
  unfold buildOptions optionDefs renderDefs
  rw [h1, h2, h3, h4, h5, h6, h7]
  cases fmt <;> simp only [reduceCtorEq, or_self, or_false, or_true, false_or, true_or, if_true, if_false, List.flatMap_cons, List.flatMap_nil,
    List.cons_append, List.nil_append, List.append_assoc, List.append_nil]

theorem optionDefs_plain {p : NumPunct} (hs : p.sep ≠ ' ') (cs st : BitVec 64) (fmt : ClFormat) :
    ∀ d ∈ optionDefs p cs st fmt, PlainDef d := by
  have hm : ' ' ∉ ('{' :: (putMarker p chunkMarker ++ ['}'])) := by
    intro h
    simp only [List.mem_cons, List.mem_append, putMarker, List.mem_flatMap] at h
    rcases h with h | ⟨b, -, h | h⟩ | h
    · revert h; decide
    · exact space_putNumber hs (Nat.lt_of_lt_of_le b.isLt (by decide)) h
    · revert h; simp
    · revert h; simp
  have hc : PlainDef ("CL842_CHUNK_SIZE".toList, putNumber p cs.toNat) := plainDef_mk (by decide) (space_putNumber hs (size_lt cs))
  have ht : PlainDef ("CL842_CHUNK_STRIDE".toList, putNumber p st.toNat) := plainDef_mk (by decide) (space_putNumber hs (size_lt st))
  have he : PlainDef ("EINVAL".toList, putNumber p 22) := plainDef_mk (by decide) (space_putNumber hs (by decide))
  have hn : PlainDef ("ENOSPC".toList, putNumber p 28) := plainDef_mk (by decide) (space_putNumber hs (by decide))
  have hk : PlainDef ("LIB842_COMPRESSED_CHUNK_MARKER_DEF".toList, '{' :: (putMarker p chunkMarker ++ ['}'])) := plainDef_mk (by decide) hm
  have h6 : PlainDef ("USE_MAYBE_COMPRESSED_CHUNKS".toList, ['1']) := plainDef_mk (by decide) (by decide)
  have h7 : PlainDef ("USE_INPLACE_COMPRESSED_CHUNKS".toList, ['1']) := plainDef_mk (by decide) (by decide)
  have all4 : ∀ a b c d : List Char × List Char, PlainDef a → PlainDef b → PlainDef c → PlainDef d → ∀ l : List (List Char × List Char),
      (∀ x ∈ l, PlainDef x) → ∀ x ∈ [a, b, c, d] ++ l, PlainDef x := by
    intro a b c d ha hb hc hd l hl x hx
    simp only [List.mem_append, List.mem_cons, List.not_mem_nil, or_false] at hx
    rcases hx with (rfl | rfl | rfl | rfl) | hx
    · exact ha
    · exact hb
    · exact hc
    · exact hd
    · exact hl x hx
  unfold optionDefs
  rw [List.append_assoc]
  refine all4 _ _ _ _ hc ht he hn _ fun x hx => ?_
  rcases List.mem_append.1 hx with hx | hx
  · split at hx
    · rw [List.mem_singleton.1 hx]; exact hk
    · cases hx
  · split at hx
    · rw [List.mem_singleton.1 hx]; exact h6
    · split at hx
      · rw [List.mem_singleton.1 hx]; exact h7
      · cases hx

theorem macroOf_options {p : NumPunct} (hs : p.sep ≠ ' ') (cs st : BitVec 64) (fmt : ClFormat) (name : String) :
    macroOf (buildOptions p cs st fmt) name = (optionDefs p cs st fmt).lookup name.toList :=
  macroOf_render (buildOptions_render p cs st fmt) (optionDefs_plain hs cs st fmt) name

end Lib842
