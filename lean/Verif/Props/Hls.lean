import Verif.Proofs.Hls
/-!
# Properties of the HLS tokenizer

C48.  Transfers are full: the 128-bit bus carries 16 bytes each time.
-/

namespace Lib842.Props
open Lib842 Spec

/-- The input stream that delivers the groups `ws` of 16 bytes. -/
def bus (ws : List (List Byte)) : List HlsIn := (transfers ws).map fun t => { data := t.1, last := t.2 }

/-- C48: a stream of the hardware format, however its ops fall across the transfers and whatever
follows the end marker, is cut into exactly its ops. -/
theorem C48_hls_tokens {ws : List (List Byte)} (hw : ∀ w ∈ ws, w.length = 16) {ops : List Op}
    (hv : ∀ op ∈ ops, op.Valid ∧ op.isShort = false) {rest : List Bool}
    (h : bytesBits ws.flatten = ops.flatMap Op.bits ++ (bitsOf 5 0x1e ++ rest)) :
    hlsTokenizer (bus ws) = some (.ok
      (ops.map (fun op => { data := token op.bits, last := false }) ++
        [{ data := token (bitsOf 5 0x1e), last := true }])) := by
  cases ws with
  | nil =>
    have := congrArg List.length h
    simp [bytesBits_nil] at this
    omega
  | cons w ws =>
    obtain ⟨s, h1, ho, hi⟩ := hlsTokenizer_eq hw
    have h1' : hlsTokenizer (bus (w :: ws)) = _ := h1
    rw [h1']
    have hlen : ∀ l : List Op, l.length ≤ (l.flatMap Op.bits).length := by
      intro l
      induction l with
      | nil => simp
      | cons a l ih =>
        have := five_le_bits a
        simp only [List.flatMap_cons, List.length_append, List.length_cons]
        omega
    have hl := congrArg List.length h
    rw [length_bytesBits, length_flatten16 hw, List.length_append] at hl
    have := hlen ops
    rw [hlsLoop_pieces (ops.map Op.bits) _ s (bytesBits w) ws rest hi ?_ ?_ ?_, ho]
    · simp only [List.nil_append, List.map_map]
      rfl
    · intro g hg
      obtain ⟨op, hop, rfl⟩ := List.mem_map.1 hg
      exact cutAt_op (hv op hop).1 (hv op hop).2
    · rw [← bytesBits_append, ← List.flatten_cons, h, ← List.flatMap_def]
    · rw [List.length_map]
      simp only [List.length_cons] at hl
      omega

/-- C48: every input, well formed or not: the tokenizer terminates, never waits for a transfer
after the last one and never leaves its buffer.  The tokens are the pieces the stream starts
with, up to the end marker or up to the point where no complete piece is left; then comes one
end token. -/
theorem C48_hls_total {ws : List (List Byte)} (hw : ∀ w ∈ ws, w.length = 16) (hne : ws ≠ []) :
    ∃ (pieces : List (List Bool)) (tail : List Bool),
      bytesBits ws.flatten = pieces.flatten ++ tail ∧ (∀ g ∈ pieces, Piece g) ∧
      hlsTokenizer (bus ws) = some (.ok
        (pieces.map (fun g => { data := token g, last := false }) ++
          [{ data := token (bitsOf 5 0x1e), last := true }])) ∧
      ((∃ r, tail = bitsOf 5 0x1e ++ r) ∨ ∀ g r, Piece g → tail ≠ g ++ r) := by
  cases ws with
  | nil => exact absurd rfl hne
  | cons w ws =>
    obtain ⟨s, h1, ho, hi⟩ := hlsTokenizer_eq hw
    have hl : (bytesBits w ++ bytesBits ws.flatten).length = 128 * (ws.length + 1) := by
      rw [← bytesBits_append, ← List.flatten_cons, length_bytesBits, length_flatten16 hw,
        List.length_cons]
      omega
    obtain ⟨segs, tail, he, hs, hrun, ht⟩ := hlsLoop_total _ (128 * (ws.length + 1) + 1) s _ _ hi
      (Nat.le_refl _) (by omega)
    refine ⟨segs, tail, ?_, fun g hg => piece_of_cutAt (hs g hg).1 (hs g hg).2, ?_, ?_⟩
    · rw [List.flatten_cons, bytesBits_append, he]
    · have h1' : hlsTokenizer (bus (w :: ws)) = _ := h1
      rw [h1', hrun, ho]
      rfl
    · rcases ht with h | h
      · exact .inl h
      · exact .inr fun g r hg => h g r (cutAt_piece hg).1

/-- States before an iteration of the loop. -/
inductive HlsReach (ws : List (List Byte)) : HlsS → Prop
  | start {s : HlsS} : hlsStart (bus ws) = .ok s → HlsReach ws s
  | step {s s' : HlsS} : HlsReach ws s → hlsIter s = .ok (s', false) → HlsReach ws s'

/-- C48: the bit count of the shift buffer is exact before every iteration: of the stream `done`
has been written as tokens, the next `bits` bits are in the buffer (the rest of which is zero),
the transfers still to come carry everything else.  So the count neither wraps nor exceeds the
266 bits of the buffer. -/
theorem C48_hls_buffer {ws : List (List Byte)} (hw : ∀ w ∈ ws, w.length = 16) {s : HlsS}
    (h : HlsReach ws s) :
    ∃ (pieces : List (List Bool)) (inbuf : List Bool) (left : List (List Byte)),
      bytesBits ws.flatten = pieces.flatten ++ (inbuf ++ bytesBits left.flatten) ∧
      s.out = pieces.map (fun g => { data := token g, last := false }) ∧ (∀ g ∈ pieces, Piece g) ∧
      s.buffer = inbuf ++ List.replicate (266 - inbuf.length) false ∧ s.bits = inbuf.length ∧
      s.bits ≤ 266 ∧ s.inp = bus left ∧ (s.last = true ↔ left = []) := by
  have key : ∃ (pieces : List (List Bool)) (inbuf : List Bool) (left : List (List Byte)),
      bytesBits ws.flatten = pieces.flatten ++ (inbuf ++ bytesBits left.flatten) ∧
      s.out = pieces.map pieceTok ∧ (∀ g ∈ pieces, Piece g) ∧ HLoop s inbuf left := by
    induction h with
    | @start s hs =>
      cases ws with
      | nil => simp [bus, transfers, hlsStart] at hs
      | cons w ws =>
        obtain ⟨s', h1, ho, hi⟩ := hlsStart_ok hw
        have h1' : hlsStart (bus (w :: ws)) = _ := h1
        rw [hs] at h1'
        cases h1'
        exact ⟨[], bytesBits w, ws, by rw [List.flatten_cons, bytesBits_append]; rfl, ho, by simp, hi⟩
    | @step s s' _ hs ih =>
      obtain ⟨pieces, inbuf, left, he, ho, hp, hi⟩ := ih
      obtain ⟨g, p', ws', hg, hne, hb, hi', ho'⟩ := hlsIter_next hi hs
      refine ⟨pieces ++ [g], p', ws', ?_, ?_, ?_, hi'⟩
      · rw [he, hb]; simp
      · rw [ho', ho]; simp
      · intro x hx
        rcases List.mem_append.1 hx with h | h
        · exact hp x h
        · rw [List.mem_singleton.1 h]; exact piece_of_cutAt hg hne
  obtain ⟨pieces, inbuf, left, he, ho, hp, hi⟩ := key
  refine ⟨pieces, inbuf, left, he, ho, hp, ?_, hi.len.symm, hi.le, hi.inp, ?_⟩
  · rw [hi.len]; exact hi.buffer
  · rw [hi.last]; exact List.isEmpty_iff

/-- A stream over two transfers: a template with a literal, a repeat, zeros, end; the first token
takes 69 bits, the third lies across the boundary. -/
def exHlsOps : List Op :=
  [.template 0 [.data [1, 2, 3, 4, 5, 6, 7, 8]], .rep 2, .template 1 [.data [9, 9, 9, 9], .data [1, 2], .index 2 0],
   .zeros]

def exHlsWs : List (List Byte) :=
  [[0x00, 0x08, 0x10, 0x18, 0x20, 0x28, 0x30, 0x38, 0x46, 0xc2, 0x08, 0x48, 0x48, 0x48, 0x48, 0x08],
   [0x10, 0x07, 0x3c, 0x00, 0x00, 0x00, 0x00, 0x00, 0x00, 0x00, 0x00, 0x00, 0x00, 0x00, 0x00, 0x00]]

example : (∀ w ∈ exHlsWs, w.length = 16) ∧ (∀ op ∈ exHlsOps, op.Valid ∧ op.isShort = false) ∧
    ∃ rest, bytesBits exHlsWs.flatten = exHlsOps.flatMap Op.bits ++ (bitsOf 5 0x1e ++ rest) := by
  refine ⟨by decide, ?_, (bytesBits exHlsWs.flatten).drop 151, by decide +kernel⟩
  intro op hop
  simp only [exHlsOps, List.mem_cons, List.not_mem_nil, or_false] at hop
  rcases hop with rfl | rfl | rfl | rfl
  all_goals simp [Op.Valid, Op.isShort, templates, Arg.action, Arg.Valid, indexBits]

/-- C48 limit: the short-data op of the software format is not known to the tokenizer; its length
and bytes are taken for further ops.  Here the byte 0x00 … of a 1-byte op becomes a `D8` op. -/
theorem C48_hls_short_false : ∃ (ws : List (List Byte)) (ops : List Op),
    (∀ w ∈ ws, w.length = 16) ∧ (∀ op ∈ ops, op.Valid) ∧
    (∃ rest, bytesBits ws.flatten = ops.flatMap Op.bits ++ (bitsOf 5 0x1e ++ rest)) ∧
    hlsTokenizer (bus ws) ≠ some (.ok
      (ops.map (fun op => { data := token op.bits, last := false }) ++
        [{ data := token (bitsOf 5 0x1e), last := true }])) := by
  refine ⟨[[0xe9, 0x00, 0xf0, 0, 0, 0, 0, 0, 0, 0, 0, 0, 0, 0, 0, 0]], [.short [0x00]], by decide, ?_,
    ⟨List.replicate 107 false, by decide +kernel⟩, by decide +kernel⟩
  intro op hop
  simp only [List.mem_cons, List.not_mem_nil, or_false] at hop
  subst hop
  simp [Op.Valid]

end Lib842.Props
