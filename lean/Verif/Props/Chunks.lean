import Verif.Proofs.ChunksTight
import Verif.Props.Size
/-!
# Property theorems about compressing data in pieces (C121)
-/

namespace Lib842

theorem Chunks.size_of {e : Endian} {addr : Nat} {j : CompJunk} {x buf : List Byte} {n : Nat} {b : List Byte}
    (h : sw842Compress e addr j x buf = .ret none n b) : n = 8 * ((Spec.sizeBits x + 63) / 64) := by
  obtain ⟨b', -, h'⟩ := Props.C120_sw_size e addr j x buf
  rw [h] at h'
  split at h'
  · cases h'; rfl
  · cases h'

/-- Every second word is the same. -/
def Chunks.words : List Byte := (List.range 40).flatMap fun i => [7#8, 9#8, BitVec.ofNat 8 (2 * i + 20), BitVec.ofNat 8 (2 * i + 21)]

theorem Chunks.call_of (e : Endian) (addr : Nat) (j : CompJunk) (x buf : List Byte) {n : Nat} (hn : 8 * ((Spec.sizeBits x + 63) / 64) = n)
    (hb : n ≤ buf.length) (h32 : n ≤ 0xffffffff) : ∃ b, sw842Compress e addr j x buf = .ret none n b := by
  obtain ⟨b, -, h⟩ := Props.C120_sw_size e addr j x buf
  rw [hn, if_pos ⟨hb, h32⟩] at h
  exact ⟨b, h⟩

namespace Props
open Spec Chunks

/-- C121: cutting data at a multiple of 8 bytes never gains anything, and it costs at most 1824 bytes, however long the parts are. Every call may
have its own buffer, byte order, address and workspace. -/
theorem C121_two {e₁ e₂ e : Endian} {a₁ a₂ a : Nat} {j₁ j₂ j : CompJunk} {p q buf₁ buf₂ buf b₁ b₂ b : List Byte} {n₁ n₂ n : Nat}
    (hp : p.length % 8 = 0) (h₁ : sw842Compress e₁ a₁ j₁ p buf₁ = .ret none n₁ b₁) (h₂ : sw842Compress e₂ a₂ j₂ q buf₂ = .ret none n₂ b₂)
    (h : sw842Compress e a j (p ++ q) buf = .ret none n b) : n ≤ n₁ + n₂ ∧ n₁ + n₂ ≤ n + 1824 := by
  have := two (q := q) hp
  rw [size_of h₁, size_of h₂, size_of h]
  omega

theorem _root_.Lib842.Chunks.many (cs : List (List Byte)) (hne : cs ≠ []) (h8 : ∀ c ∈ cs.dropLast, c.length % 8 = 0) :
    8 * ((sizeBits cs.flatten + 63) / 64) ≤ (cs.map fun c => 8 * ((sizeBits c + 63) / 64)).sum ∧
    (cs.map fun c => 8 * ((sizeBits c + 63) / 64)).sum ≤ 8 * ((sizeBits cs.flatten + 63) / 64) + 1824 * (cs.length - 1) := by
  induction cs with
  | nil => exact absurd rfl hne
  | cons c cs ih =>
    cases cs with
    | nil => simp
    | cons d ds =>
      have hc : c.length % 8 = 0 := h8 c (by rw [List.dropLast_cons_cons]; exact List.mem_cons_self)
      have ih := ih (by simp) fun x hx => h8 x (by rw [List.dropLast_cons_cons]; exact List.mem_cons_of_mem _ hx)
      have h2 := two (q := (d :: ds).flatten) hc
      rw [List.flatten_cons, List.map_cons, List.sum_cons, List.length_cons (a := c)]
      have hl : (d :: ds).length = ds.length + 1 := rfl
      omega

/-- C121: the same for any number of pieces, as the tools that work chunk by chunk make them: the streams of the pieces together are at least as
long as one stream for all the data, and at most 1824 bytes longer for every cut. `cs` are the pieces, each with the size of its stream; all but
the last are whole groups. -/
theorem C121_pieces (cs : List (List Byte × Nat)) (hne : cs ≠ []) (h8 : ∀ c ∈ cs.dropLast, c.1.length % 8 = 0)
    (hc : ∀ c ∈ cs, ∃ e addr j buf b, sw842Compress e addr j c.1 buf = .ret none c.2 b) {e : Endian} {addr : Nat} {j : CompJunk}
    {buf b : List Byte} {n : Nat} (h : sw842Compress e addr j (cs.map (·.1)).flatten buf = .ret none n b) :
    n ≤ (cs.map (·.2)).sum ∧ (cs.map (·.2)).sum ≤ n + 1824 * (cs.length - 1) := by
  have hm : cs.map (·.2) = (cs.map (·.1)).map fun c => 8 * ((sizeBits c + 63) / 64) := by
    rw [List.map_map]
    apply List.map_congr_left
    intro c hcs
    obtain ⟨e, addr, j, buf, b, h⟩ := hc c hcs
    exact size_of h
  have := many (cs.map (·.1)) (by simpa using hne) (by
    rw [← List.map_dropLast]
    intro c hcm
    obtain ⟨d, hd, rfl⟩ := List.mem_map.1 hcm
    exact h8 d hd)
  rw [hm, size_of h]
  rw [List.length_map] at this
  exact this

/-- C121: the cut has to be at a multiple of 8: one byte in front of `words` (160 bytes) hides all its repeated words, so that the two pieces
take 8 + 144 bytes but the whole 184. -/
theorem C121_unaligned (e : Endian) (addr : Nat) (j : CompJunk) (buf : List Byte) (hb : 184 ≤ buf.length) :
    (∃ b, sw842Compress e addr j [1#8] buf = .ret none 8 b) ∧ (∃ b, sw842Compress e addr j words buf = .ret none 144 b) ∧
    ∃ b, sw842Compress e addr j ([1#8] ++ words) buf = .ret none 184 b :=
  ⟨call_of e addr j _ buf (by decide +kernel) (by omega) (by omega), call_of e addr j _ buf (by decide +kernel) (by omega) (by omega),
    call_of e addr j _ buf (by decide +kernel) (by omega) (by omega)⟩

/-- C121: a cut can cost 1800 bytes: `different` (2 KiB in which no word occurs twice) takes 2216 bytes, twice the same data 2632. -/
theorem C121_loss (e : Endian) (addr : Nat) (j : CompJunk) (buf : List Byte) (hb : 2632 ≤ buf.length) :
    different.length % 8 = 0 ∧ (∃ b, sw842Compress e addr j different buf = .ret none 2216 b) ∧
    ∃ b, sw842Compress e addr j (different ++ different) buf = .ret none 2632 b :=
  ⟨by rw [different_length], call_of e addr j _ buf (by rw [different_size]) (by omega) (by omega),
    call_of e addr j _ buf (by rw [twice_size]) (by omega) (by omega)⟩

/-- Pieces as in `C121_pieces`: `words` twice and three bytes. Together 304 bytes, in one piece less than that. -/
example (e : Endian) (addr : Nat) (j : CompJunk) (buf : List Byte) (hb : 304 ≤ buf.length) :
    (∀ c ∈ ([(words, 144), (words, 144), ([1#8, 2#8, 3#8], 16)] : List (List Byte × Nat)),
      ∃ e addr j buf b, sw842Compress e addr j c.1 buf = .ret none c.2 b) ∧
    ∃ n b, n < 304 ∧ sw842Compress e addr j (words ++ words ++ [1#8, 2#8, 3#8]) buf = .ret none n b := by
  refine ⟨?_, ?_⟩
  · intro c hc
    simp only [List.mem_cons, List.not_mem_nil, or_false] at hc
    refine ⟨e, addr, j, buf, ?_⟩
    rcases hc with rfl | rfl | rfl
    · exact call_of e addr j _ buf (by decide +kernel) (by simp only; omega) (by simp only; omega)
    · exact call_of e addr j _ buf (by decide +kernel) (by simp only; omega) (by simp only; omega)
    · exact call_of e addr j _ buf (by decide +kernel) (by simp only; omega) (by simp only; omega)
  · obtain ⟨b, h⟩ := call_of e addr j (words ++ words ++ [1#8, 2#8, 3#8]) buf (n := 176) (by decide +kernel) (by omega) (by omega)
    exact ⟨_, b, by omega, h⟩

end Lib842.Props
