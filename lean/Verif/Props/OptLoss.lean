import Verif.Proofs.OptEvict
import Verif.Props.Opt
/-!
# C90: how much longer the output of the optimised compressor can be than that of the serial one

The statements only use the entry points of the model and explicit inputs.
-/

namespace Lib842.Props
open Spec

/-- C90: the output of `optsw842_compress` is less than 69/13 (about 5.3) times as long as that of
`sw842_compress`. -/
theorem C90_bound (e e' : Endian) (ain aout addr : Nat) (j : OptJunk) (jsw j' : CompJunk)
    (x buf buf' : List Byte) (n n' : Nat) (b b' : List Byte)
    (h : optsw842Compress e ain aout j jsw x buf = .ret none n b)
    (h' : sw842Compress e' addr j' x buf' = .ret none n' b') : 13 * n + 156 ≤ 69 * n' := by
  obtain ⟨h8, -, hn, -, -, -, -⟩ := optsw842Compress_ok h
  obtain ⟨hn', -, -, -, -⟩ := sw842Compress_ok h'
  have hsw : 37 ≤ (streamBits x).length := by
    unfold streamBits; rw [List.length_append, length_trailer]; omega
  rw [hn, hn']
  unfold optBits
  split
  · unfold paddedSize; omega
  · have := refOps_ratio h8
    unfold ostreamBits streamBits paddedSize
    rw [List.length_append, List.length_append, length_trailer]
    omega

/-- Two groups of 8 bytes: for every value of 2, 4 or 8 bytes in one of them the other one has a
value with the same hash. -/
def rivalA : List Byte := [194, 28, 245, 31, 66, 102, 141, 1]
def rivalB : List Byte := [25, 24, 151, 90, 36, 198, 1, 18]

theorem rivals : Rivals rivalA rivalB where
  len := by decide
  ab := by decide +kernel
  ba := by decide +kernel
  ne := by
    have : ∀ k, k < 7 → ∀ k', k' < 7 → slotSize k' = slotSize k →
        slice rivalA (slotOff k) (slotSize k) ≠ slice rivalB (slotOff k') (slotSize k) := by decide +kernel
    exact fun k k' hk hk' => this k hk k' hk'
  za := by decide
  zb := by decide

/-- `k` times the two groups -/
def rivalData (k : Nat) : List Byte := (List.replicate k (rivalA ++ rivalB)).flatten

theorem flatten_replicate_len {c : List Byte} {m : Nat} (hc : c.length = m) (k : Nat) :
    (List.replicate k c).flatten.length = m * k := by
  induction k with
  | zero => rfl
  | succ k ih => rw [List.replicate_succ, List.flatten_cons, List.length_append, ih, hc, Nat.mul_succ]; omega

theorem slice_flatMap {α : Type} (f : α → List Byte) (hf : ∀ a, (f a).length = 16) (l : List α) (i s n : Nat)
    (a : α) (ha : l[i]? = some a) (hs : s + n ≤ 16) : slice (l.flatMap f) (16 * i + s) n = slice (f a) s n := by
  induction l generalizing i with
  | nil => simp at ha
  | cons c l ih =>
    cases i with
    | zero =>
      simp only [List.getElem?_cons_zero, Option.some.injEq] at ha
      subst ha
      rw [List.flatMap_cons]
      unfold slice
      rw [Nat.mul_zero, Nat.zero_add, List.drop_append_of_le_length (by rw [hf]; omega),
        List.take_append_of_le_length (by rw [List.length_drop, hf]; omega)]
    | succ i =>
      rw [List.getElem?_cons_succ] at ha
      rw [← ih i ha, List.flatMap_cons]
      unfold slice
      rw [List.drop_append, hf, List.drop_eq_nil_of_le (by rw [hf]; omega), List.nil_append]
      congr 2
      omega

theorem rivalData_alt (k : Nat) : Alternates (rivalData k) rivalA rivalB := by
  intro i hi
  have hl : (rivalData k).length = 16 * k := flatten_replicate_len rfl k
  have hx : rivalData k = (List.replicate k ()).flatMap fun _ => rivalA ++ rivalB := by
    unfold rivalData
    rw [List.flatMap_def, List.map_replicate]
  have hget : (List.replicate k ())[i / 2]? = some () := by
    rw [List.getElem?_replicate, if_pos (by omega)]
  rw [hx]
  split
  · have := slice_flatMap (fun _ : Unit => rivalA ++ rivalB) (fun _ => rfl) _ (i / 2) 0 8 () hget (by omega)
    rw [show 16 * (i / 2) + 0 = 8 * i by omega] at this
    rw [this]
    decide
  · have := slice_flatMap (fun _ : Unit => rivalA ++ rivalB) (fun _ => rfl) _ (i / 2) 8 8 () hget (by omega)
    rw [show 16 * (i / 2) + 8 = 8 * i by omega] at this
    rw [this]
    decide

/-- C90: the factor 69/13 cannot be improved: for every number `k` of repetitions of two groups
that evict each other from the hash tables, both compressors succeed in a large enough buffer, and
the lengths agree with the bound up to a constant number of bytes. -/
theorem C90_bound_tight (e e' : Endian) (ain aout addr : Nat) (j : OptJunk) (jsw j' : CompJunk)
    (buf buf' : List Byte) (k : Nat) (hk : 1 ≤ k) (hk' : k ≤ 100000000) (hal : ain % 8 = 0 ∧ aout % 8 = 0)
    (hbuf : 18 * k + 16 ≤ buf.length) (hbuf' : 18 * k + 16 ≤ buf'.length) :
    ∃ n b n' b', optsw842Compress e ain aout j jsw (rivalData k) buf = .ret none n b ∧
      sw842Compress e' addr j' (rivalData k) buf' = .ret none n' b' ∧
      138 * k ≤ 8 * n ∧ 69 * n' ≤ 13 * n + 1769 := by
  have hl : (rivalData k).length = 16 * k := flatten_replicate_len rfl k
  have h8 : (rivalData k).length % 8 = 0 := by omega
  have halt := rivalData_alt k
  have hne : rivalData k ≠ [] := by intro h; rw [h] at hl; simp at hl; omega
  have ho := orefOps_rivals halt rivals h8
  have hs := refOps_again (x := rivalData k) (m := 2) (by omega) (by omega) h8 (by omega) (fun i h1 h2 => by
    rw [show 8 * i - 8 * 2 = 8 * (i - 2) by omega, halt i h2, halt (i - 2) (by omega)]
    congr 1
    rw [eq_iff_iff]
    omega)
  obtain ⟨b, -, hb⟩ := optsw842Compress_eq e ain aout j jsw (rivalData k) buf h8 (.inl hne)
  obtain ⟨b', -, hb'⟩ := sw842Compress_eq e' addr j' (rivalData k) buf'
  have hob : (optBits ain aout (rivalData k)).length = 138 * k + 37 := by
    unfold optBits
    rw [if_neg (by omega)]
    unfold ostreamBits
    rw [List.length_append, length_trailer, ho, hl]
    omega
  have hsb : (streamBits (rivalData k)).length ≤ 26 * k + 149 := by
    unfold streamBits
    rw [List.length_append, length_trailer]
    rw [hl] at hs
    omega
  rw [if_pos ⟨by unfold paddedSize; omega, by unfold paddedSize; omega⟩] at hb'
  rw [hob] at hb
  rcases hb with ⟨-, -, hb, -⟩ | ⟨hno, -⟩
  swap
  · exact absurd ⟨by unfold paddedSize; omega, .inl hal⟩ hno
  refine ⟨_, b, _, b', hb, hb'.1, ?_, ?_⟩
  · unfold paddedSize; omega
  · unfold paddedSize; omega

/-- Four repetitions: 80 and 32 bytes -/
example : (view (optsw842Compress .little 0 0 ojunk0 junk0 (rivalData 4) (List.replicate 88 0))).map
      (fun r => (r.1, r.2.1)) = some (none, 80) ∧
    (view (sw842Compress .little 0 junk0 (rivalData 4) (List.replicate 88 0))).map
      (fun r => (r.1, r.2.1)) = some (none, 32) := by decide +kernel

/-! ## Zero groups -/

/-- The given groups, with a zero group after each of them -/
def withHoles (gs : List (List Byte)) : List Byte := gs.flatMap fun g => g ++ List.replicate 8 0

/-- A group of 8 bytes none of whose four half-words is zero -/
def Dense (g : List Byte) : Prop := g.length = 8 ∧ ∀ i, i < 4 → (g.drop (2 * i)).take 2 ≠ [0, 0]

theorem withHoles_get (gs : List (List Byte)) (hd : ∀ g ∈ gs, Dense g) {i : Nat} {g : List Byte} (hg : gs[i]? = some g) :
    slice (withHoles gs) (16 * i + 8) 8 = List.replicate 8 0#8 ∧
    ∀ s n, s + n ≤ 8 → slice (withHoles gs) (16 * i + s) n = slice g s n := by
  have hpad : withHoles gs = gs.flatMap fun g => (g ++ List.replicate 16 0).take 8 ++ List.replicate 8 0 := by
    unfold withHoles
    rw [List.flatMap_def, List.flatMap_def]
    congr 1
    apply List.map_congr_left
    intro g hg
    rw [List.take_append_of_le_length (by rw [(hd g hg).1]), List.take_of_length_le (by rw [(hd g hg).1])]
  have hlen : ∀ g : List Byte, ((g ++ List.replicate 16 (0 : Byte)).take 8 ++ List.replicate 8 (0 : Byte)).length = 16 := by
    intro g
    rw [List.length_append, List.length_take, List.length_append, List.length_replicate, List.length_replicate]
    omega
  have h8 : (g ++ List.replicate 16 (0 : Byte)).take 8 = g := by
    have := (hd g (List.mem_of_getElem? hg)).1
    rw [List.take_append_of_le_length (by omega), List.take_of_length_le (by omega)]
  have hg8 := (hd g (List.mem_of_getElem? hg)).1
  refine ⟨?_, fun s n hsn => ?_⟩
  · rw [hpad, slice_flatMap _ hlen gs i 8 8 g hg (by omega), h8]
    unfold slice
    rw [List.drop_append_of_le_length (by omega), List.drop_eq_nil_of_le (by omega), List.nil_append]
    rfl
  · rw [hpad, slice_flatMap _ hlen gs i s n g hg (by omega), h8]
    unfold slice
    rw [List.drop_append_of_le_length (by omega), List.take_append_of_le_length (by rw [List.length_drop]; omega)]

theorem withHoles_len (gs : List (List Byte)) (hd : ∀ g ∈ gs, Dense g) : (withHoles gs).length = 16 * gs.length := by
  induction gs with
  | nil => rfl
  | cons g gs ih =>
    have h1 := (hd g (List.mem_cons_self ..)).1
    have h2 := ih fun g hg => hd g (List.mem_cons_of_mem _ hg)
    unfold withHoles at h2 ⊢
    rw [List.flatMap_cons, List.length_append, h2, List.length_append, h1, List.length_replicate, List.length_cons]
    omega

theorem withHoles_holes (gs : List (List Byte)) (hd : ∀ g ∈ gs, Dense g) : Holes (withHoles gs) := by
  intro i hi
  rw [withHoles_len gs hd] at hi
  have hg : gs[i]? = some gs[i] := List.getElem?_eq_getElem (by omega)
  obtain ⟨h1, h2⟩ := withHoles_get gs hd hg
  refine ⟨h1, fun s hs => ?_⟩
  rw [h2 _ _ (by omega)]
  exact (hd _ (List.mem_of_getElem? hg)).2 s hs

/-- C90: if every other group is zero, `optsw842_compress` (aligned buffers) does not find a single
reference, whatever the other groups are: every two groups take 74 bits. -/
theorem C90_zero_groups (e : Endian) (ain aout : Nat) (j : OptJunk) (jsw : CompJunk) (gs : List (List Byte))
    (buf : List Byte) (n : Nat) (b : List Byte) (hd : ∀ g ∈ gs, Dense g) (hal : ain % 8 = 0 ∧ aout % 8 = 0)
    (h : optsw842Compress e ain aout j jsw (withHoles gs) buf = .ret none n b) :
    n = 8 * ((74 * gs.length + 37 + 63) / 64) := by
  obtain ⟨h8, -, hn, -, -, -, -⟩ := optsw842Compress_ok h
  have hl := withHoles_len gs hd
  have ho := orefOps_holes (withHoles_holes gs hd) (by omega)
  rw [hn]
  unfold optBits
  rw [if_neg (by omega)]
  unfold ostreamBits paddedSize
  rw [List.length_append, length_trailer, ho, hl, Nat.mul_div_cancel_left _ (by omega)]

/-- C90: with the same group over and over, `sw842_compress` needs 18 bits for every two groups
instead. -/
theorem C90_zero_groups_loss (e e' : Endian) (ain aout addr : Nat) (j : OptJunk) (jsw j' : CompJunk)
    (g : List Byte) (k : Nat) (buf buf' : List Byte) (n n' : Nat) (b b' : List Byte) (hd : Dense g)
    (hal : ain % 8 = 0 ∧ aout % 8 = 0)
    (h : optsw842Compress e ain aout j jsw (withHoles (List.replicate k g)) buf = .ret none n b)
    (h' : sw842Compress e' addr j' (withHoles (List.replicate k g)) buf' = .ret none n' b') :
    n = 8 * ((74 * k + 37 + 63) / 64) ∧ n' ≤ 8 * ((18 * k + 56 + 37 + 63) / 64) := by
  have hd' : ∀ g' ∈ List.replicate k g, Dense g' := fun g' hg => by rw [List.eq_of_mem_replicate hg]; exact hd
  have hopt := C90_zero_groups e ain aout j jsw _ buf n b hd' hal h
  rw [List.length_replicate] at hopt
  refine ⟨hopt, ?_⟩
  obtain ⟨hn', -, -, -, -⟩ := sw842Compress_ok h'
  have hl := withHoles_len _ hd'
  rw [List.length_replicate] at hl
  have hget : ∀ i, i < k → slice (withHoles (List.replicate k g)) (16 * i) 8 = slice g 0 8 := by
    intro i hi
    have := (withHoles_get _ hd' (i := i) (g := g) (by rw [List.getElem?_replicate, if_pos hi])).2 0 8 (by omega)
    rwa [Nat.add_zero] at this
  have hs := refLoop_holes (withHoles_holes _ hd') k (.init _) (pos := 0) rfl (by omega) (last := none)
    (fun i h1 h2 => by
      rw [show 16 * i - 16 = 16 * (i - 1) by omega, hget i (by omega), hget (i - 1) (by omega)])
    (.inl rfl)
  rw [if_pos rfl] at hs
  rw [hn']
  unfold streamBits refOps shortOps paddedSize
  rw [if_pos (by omega), List.append_nil, List.length_append, length_trailer, hl,
    show 16 * k / 8 = 2 * k by omega]
  omega

def denseGroup : List Byte := [1, 2, 3, 4, 5, 6, 7, 8]

theorem denseGroup_ok : Dense denseGroup := by
  refine ⟨rfl, ?_⟩
  decide

/-- Five repetitions: 56 and 24 bytes -/
example : (view (optsw842Compress .little 0 0 ojunk0 junk0 (withHoles (List.replicate 5 denseGroup)) (List.replicate 88 0))).map
      (fun r => (r.1, r.2.1)) = some (none, 56) ∧
    (view (sw842Compress .little 0 junk0 (withHoles (List.replicate 5 denseGroup)) (List.replicate 88 0))).map
      (fun r => (r.1, r.2.1)) = some (none, 24) := by decide +kernel

end Lib842.Props
