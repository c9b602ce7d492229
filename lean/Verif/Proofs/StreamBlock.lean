import Verif.Model.StreamBlock
import Verif.Props.Chunked
/-!
# Blocks of the streams: what the properties speak about, and helper lemmas
-/

namespace Lib842
open Lib842.Props

/-- What the streams expect of a compressor `f` and a decompressor `g` for single chunks (the
first two arguments are the addresses of input and output): `f` returns, possibly with an error,
on every 64 KiB chunk with 64 KiB of space; when it succeeds, `g` restores the chunk from the
compressed bytes. -/
structure ChunkContract (f g : ChunkFn) : Prop where
  fsize : KeepsSize f
  gsize : KeepsSize g
  total : ∀ a o src dst, src.length = 65536 → dst.length = 65536 → ∃ rc n buf, f a o src dst = .ret rc n buf
  restores : ∀ a o src dst n buf, src.length = 65536 → dst.length = 65536 → f a o src dst = .ret none n buf →
    0 < n ∧ ∀ a' o' dst', dst'.length = 65536 → g a' o' (buf.take n) dst' = .ret none 65536 src

/-- The bytes of chunk `i` -/
def chunkOf (data : List Byte) (i : Nat) : List Byte := (data.drop (i * 65536)).take 65536

/-- Chunk `i` of the block `b` is stored raw. -/
def Block.Raw (b : Block) (i : Nat) : Prop := b.sizes[i]? = some 65536

/-- Chunk `i` of the block `b` is stored compressed, in at most 65512 bytes, and `g` restores `data`
from it. -/
def Block.Comp (g : ChunkFn) (b : Block) (i : Nat) (data : List Byte) : Prop :=
  ∃ n m, b.sizes[i]? = some n ∧ 0 < n ∧ n ≤ 65512 ∧ b.buf = some m ∧ i * b.padding + n ≤ m.length ∧
    ∀ a o dst, dst.length = 65536 → g a o ((m.drop (i * b.padding)).take n) dst = .ret none 65536 data

/-- The block `b` stores the 1 MiB of `data` in 16 chunks, each raw, at `source`, or compressed. -/
structure Block.Holds (g : ChunkFn) (b : Block) (data : List Byte) : Prop where
  len : data.length = 2 ^ 20
  nsizes : b.sizes.length = 16
  chunk : ∀ i < 16, b.Raw i ∨ b.Comp g i (chunkOf data i)
  raw : ∀ i < 16, b.Raw i → ∃ src, b.source = some src ∧ (i + 1) * 65536 ≤ src.length ∧
    chunkOf src i = chunkOf data i

theorem keepsSize_shift {f : ChunkFn} (h : KeepsSize f) (a o : Nat) :
    KeepsSize fun so d => f (a + so) (o + d) := fun so d => h (a + so) (o + d)

theorem length_chunkOf {data : List Byte} {i : Nat} (h : (i + 1) * 65536 ≤ data.length) :
    (chunkOf data i).length = 65536 := by
  unfold chunkOf
  rw [List.length_take, List.length_drop]
  omega

theorem getElem?_chunkOf (data : List Byte) {i j : Nat} (h : j < 65536) :
    (chunkOf data i)[j]? = data[i * 65536 + j]? := by
  unfold chunkOf
  rw [List.getElem?_take_of_lt h, List.getElem?_drop]

/-- A trivial chunked call for 16 chunks at a distance of 64 KiB. -/
theorem trivial16 {f : ChunkFn} (hk : KeepsSize f) {a o st : Nat} (hst : 15 * st < 2 ^ 32) {inp : List Byte}
    {ilens : List Nat} {s s' : ChState} (hr : s.rets.length = 16)
    (h : Successive (fun so d => f (a + so) (o + d)) inp ilens (fun i => i * st) (fun i => i * 65536) 16 s s') :
    trivialChunked f a o 16 st 65536 inp ilens s = .ok none s' := by
  unfold trivialChunked
  rw [C29_chunked_partial _ (keepsSize_shift hk a o) 16 st 65536 inp ilens s s' none (by decide) (by omega) (by omega) (by decide)]
  exact ⟨rfl, h⟩

/-- If every call that is made returns, all chunks are processed. -/
theorem successive_total {f : ChunkFn} (hk : KeepsSize f) {inp : List Byte} {ilens : List Nat} {so d : Nat → Nat}
    {s : ChState} (k : Nat)
    (hcall : ∀ i < k, ∃ il, ilens[i]? = some il ∧ (il ≠ 2 ^ 64 - 1 → so i + il ≤ inp.length ∧
      ∃ ol, s.olens[i]? = some ol ∧ d i + ol ≤ s.out.length ∧
      ∀ dst, dst.length = ol → ∃ rc n buf, f (so i) (d i) ((inp.drop (so i)).take il) dst = .ret rc n buf)) :
    ∃ s', Successive f inp ilens so d k s s' := by
  induction k with
  | zero => exact ⟨s, .zero⟩
  | succ k ih =>
    obtain ⟨s1, h1⟩ := ih (fun i hi => hcall i (by omega))
    obtain ⟨il, hil, hreg'⟩ := hcall k (by omega)
    by_cases hsm : il = 2 ^ 64 - 1
    · exact ⟨s1, .succ h1 (.skip (by rw [hil, hsm]))⟩
    · obtain ⟨hin, ol, hol, hout, hf⟩ := hreg' hsm
      have hlen := (C31_writes_only_regions _ hk inp ilens so d k s s1 h1).1
      have hol' := (h1.later k (le_refl _)).2.trans hol
      obtain ⟨rc, n, b, hf⟩ := hf ((s1.out.drop (d k)).take ol) (by
        rw [List.length_take, List.length_drop]; omega)
      exact ⟨_, .succ h1 (.call hil hsm hin hol' (by omega) hf)⟩

theorem ptrAdd_some {m : List Byte} {n : Nat} (h : n ≤ m.length) : ptrAdd (some m) n = .ok (some (m.drop n)) := by
  show (if n ≤ m.length then _ else _) = _
  rw [if_pos h]

/-! ## Compression -/

theorem compBlock_holds {f g : ChunkFn} (hc : ChunkContract f g) (ptr abuf : Nat) (inp : List Byte)
    (offset : Nat) (rets0 : List (Option Errno)) (sizes0 : List Nat) (buf0 : List Byte)
    (hin : offset + 2 ^ 20 ≤ inp.length) (hr : rets0.length = 16) (hb : buf0.length = 2 ^ 20) :
    ∃ b, compBlock (trivialChunked f) ptr abuf inp offset rets0 sizes0 buf0 = .ok b ∧
      b.offset = offset ∧ b.padding = 65536 ∧ b.source = some (inp.drop offset) ∧
      (∀ i < 16, ∃ rc n buf, f (ptr + offset + i * 65536) (abuf + i * 65536)
          (chunkOf (inp.drop offset) i) (chunkOf buf0 i) = .ret rc n buf ∧
          b.sizes[i]? = some (if rc = none ∧ n ≤ 65512 then n else 65536)) ∧
      b.Holds g ((inp.drop offset).take (2 ^ 20)) := by
  have hk := keepsSize_shift hc.fsize (ptr + offset) abuf
  have h16 : (List.replicate 16 65536).length = 16 := rfl
  have hrep : ∀ i < 16, (List.replicate 16 65536)[i]? = some 65536 := by
    intro i hi; rw [List.getElem?_replicate, if_pos hi]
  have hdl : (inp.drop offset).length = inp.length - offset := List.length_drop
  obtain ⟨s', hs⟩ := successive_total (s := ⟨rets0, buf0, List.replicate 16 65536⟩) hk
    (inp := inp.drop offset) (ilens := List.replicate 16 65536) (so := fun i => i * 65536)
    (d := fun i => i * 65536) 16 (by
      intro i hi
      refine ⟨65536, hrep i hi, fun _ => ⟨by omega, 65536, hrep i hi, by show i * 65536 + 65536 ≤ buf0.length; omega, ?_⟩⟩
      intro dst hdst
      exact hc.total _ _ _ _ (length_chunkOf (by omega)) hdst)
  have hcall := trivial16 hc.fsize (st := 65536) (by decide) hr hs
  have hiso := C31_isolation _ hk _ _ _ _ _ _ _ hs (by show 16 ≤ rets0.length; omega) (by
    intro i hi i' hi' hne ol ol' hol hol' _ _
    rw [hrep i hi] at hol
    rw [hrep i' hi'] at hol'
    cases hol; cases hol'
    omega)
  have hlen := hs.lens
  have hl1 : s'.rets.length = 16 := by have := hlen.1; simp only at this; omega
  have hl2 : s'.olens.length = 16 := by have := hlen.2; simp only [List.length_replicate] at this; omega
  have hl3 : s'.out.length = 2 ^ 20 := by
    have := (C31_writes_only_regions _ hk _ _ _ _ _ _ _ hs).1
    simp only at this; omega
  -- per chunk
  have hchunk : ∀ i < 16, ∃ rc n buf, s'.rets[i]? = some rc ∧ s'.olens[i]? = some n ∧
      (s'.out.drop (i * 65536)).take 65536 = buf ∧
      f (ptr + offset + i * 65536) (abuf + i * 65536) (chunkOf (inp.drop offset) i) (chunkOf buf0 i) =
        .ret rc n buf := by
    intro i hi
    obtain ⟨rc, n, buf, h1, h2, h3, h4⟩ := (hiso i hi).2 65536 65536 (hrep i hi) (by decide) (hrep i hi)
    exact ⟨rc, n, buf, h2, h3, h4, h1⟩
  unfold compBlock
  have hp : ptrAdd (some inp) offset = .ok (some (inp.drop offset)) := ptrAdd_some (by omega)
  rw [hp]
  simp only [bind, BRes.bind, Option.getD_some, numChunks, chunkSize, hcall]
  refine ⟨_, rfl, rfl, rfl, rfl, ?_, ?_⟩
  all_goals
    have hcomp : ∀ i < 16, ∀ rc n, s'.rets[i]? = some rc → s'.olens[i]? = some n →
        ((s'.rets.zip s'.olens).map fun x => x.1 == none && decide (x.2 ≤ compressibleThreshold))[i]? =
          some (rc == none && decide (n ≤ 65512)) := by
      intro i hi rc n h1 h2
      rw [List.getElem?_map, List.getElem?_zip_eq_some (z := (rc, n)) |>.2 ⟨h1, h2⟩]
      rfl
    have hsz : ∀ i < 16, ∀ rc n, s'.rets[i]? = some rc → s'.olens[i]? = some n →
        ((((s'.rets.zip s'.olens).map fun x => x.1 == none && decide (x.2 ≤ compressibleThreshold)).zip
          s'.olens).map fun x => if x.1 then x.2 else 65536)[i]? =
          some (if (rc == none && decide (n ≤ 65512)) then n else 65536) := by
      intro i hi rc n h1 h2
      rw [List.getElem?_map, List.getElem?_zip_eq_some (z := (_, n)) |>.2 ⟨hcomp i hi rc n h1 h2, h2⟩]
      rfl
  · intro i hi
    obtain ⟨rc, n, buf, h1, h2, h3, h4⟩ := hchunk i hi
    refine ⟨rc, n, buf, h4, ?_⟩
    rw [hsz i hi _ _ h1 h2]
    simp
  · refine ⟨by rw [List.length_take]; omega, ?_, ?_, ?_⟩
    · simp only [List.length_map, List.length_zip]; omega
    · intro i hi
      obtain ⟨rc, n, buf, h1, h2, h3, h4⟩ := hchunk i hi
      have hsz := hsz i hi _ _ h1 h2
      by_cases hcond : rc = none ∧ n ≤ 65512
      · right
        rw [if_pos (by simp [hcond])] at hsz
        obtain ⟨hrc, hn⟩ := hcond
        subst hrc
        have hcc : chunkOf ((inp.drop offset).take (2 ^ 20)) i = chunkOf (inp.drop offset) i := by
          unfold chunkOf
          rw [List.drop_take, List.take_take, Nat.min_eq_left (by omega)]
        obtain ⟨hpos, hrest⟩ := hc.restores _ _ _ _ _ _ (length_chunkOf (by omega)) (length_chunkOf (by omega)) h4
        refine ⟨n, s'.out, hsz, hpos, hn, ?_, ?_, ?_⟩
        · rw [if_pos]
          rw [List.any_eq_true]
          exact ⟨true, List.mem_of_getElem? ((hcomp i hi _ _ h1 h2).trans (by simp [hn])), rfl⟩
        · show i * 65536 + n ≤ _; omega
        · intro a o dst hdst
          rw [hcc]
          have := hrest a o dst hdst
          rw [← h3, List.take_take, Nat.min_eq_left (by omega)] at this
          exact this
      · left
        unfold Block.Raw
        rw [hsz, if_neg]
        simp only [Bool.and_eq_true, beq_iff_eq, decide_eq_true_eq]
        exact hcond
    · intro i hi _
      refine ⟨_, rfl, by omega, ?_⟩
      unfold chunkOf
      rw [List.drop_take, List.take_take, Nat.min_eq_left (by omega)]

/-! ## Decompression -/

/-- `input_chunk_sizes[i]` -/
def ilenOf (b : Block) (i : Nat) : Nat :=
  match b.sizes[i]? with
  | some n => if n = 0 ∨ n = 65536 then SIZE_MAX else n
  | none => 0

theorem writeBytes_get {m m' bs : List Byte} {i : Nat} (h : writeBytes m i bs = some m') :
    m'.length = m.length ∧ ∀ j, m'[j]? = if i ≤ j ∧ j < i + bs.length then bs[j - i]? else m[j]? := by
  unfold writeBytes at h
  split at h
  · rename_i hle
    cases h
    refine ⟨by simp only [List.length_append, List.length_take, List.length_drop]; omega, fun j => ?_⟩
    by_cases h1 : j < i
    · rw [if_neg (by omega), List.append_assoc, List.getElem?_append_left (by rw [List.length_take]; omega),
        List.getElem?_take_of_lt h1]
    · rw [List.append_assoc, List.getElem?_append_right (by rw [List.length_take]; omega), List.length_take,
        Nat.min_eq_left (by omega)]
      by_cases h2 : j < i + bs.length
      · rw [if_pos (by omega), List.getElem?_append_left (by omega)]
      · rw [if_neg (by omega), List.getElem?_append_right (by omega), List.getElem?_drop]
        congr 1; omega
  · cases h

theorem writeBytes_some {m bs : List Byte} {i : Nat} (h : i + bs.length ≤ m.length) :
    ∃ m', writeBytes m i bs = some m' := by
  unfold writeBytes; rw [if_pos h]; exact ⟨_, rfl⟩

/-- One chunk of the first loop, with assertions compiled out. -/
theorem prepChunk_holds {g : ChunkFn} {b : Block} {data out : List Byte} (h : b.Holds g data) {i : Nat} (hi : i < 16)
    (hout : b.offset + 2 ^ 20 ≤ out.length) :
    ∃ out', prepChunk true b i out = .ok (ilenOf b i, out') ∧ out'.length = out.length ∧
      (b.Raw i → ∀ j, out'[j]? = if b.offset + i * 65536 ≤ j ∧ j < b.offset + (i + 1) * 65536 then data[j - b.offset]? else out[j]?) ∧
      (¬ b.Raw i → out' = out) := by
  rcases h.chunk i hi with hraw | ⟨n, m, hn, hpos, hle, _⟩
  · obtain ⟨src, hsrc, hlen, hck⟩ := h.raw i hi hraw
    have hlc := length_chunkOf hlen
    have hcd := length_chunkOf (data := data) (i := i) (by have := h.len; omega)
    obtain ⟨out', hw⟩ := writeBytes_some (m := out) (bs := chunkOf data i) (i := b.offset + i * 65536) (by omega)
    obtain ⟨w1, w2⟩ := writeBytes_get hw
    have hraw' : b.sizes[i]? = some 65536 := hraw
    have hg : b.getChunk true i = .ok (some (src.drop (i * 65536))) := by
      unfold Block.getChunk
      rw [hraw', hsrc]
      simp only [BRes.access, bind, BRes.bind, bAssert, Bool.true_or, if_true]
      rw [if_neg (by decide), if_pos (show 65536 = chunkSize from rfl)]
      have hle : i * 65536 ≤ src.length := Nat.le_trans (by rw [Nat.add_mul]; exact Nat.le_add_right _ _) hlen
      have hcs : chunkSize = 65536 := by decide
      rw [hcs]
      exact ptrAdd_some hle
    have hrd : ptrRead (some (src.drop (i * 65536))) 65536 = .ok (chunkOf src i) := by
      unfold ptrRead
      simp only [Option.bind_some, readBytes, List.length_drop]
      rw [if_pos (by omega)]
      rfl
    refine ⟨out', ?_, w1, fun _ j => ?_, fun hx => absurd hraw hx⟩
    · unfold prepChunk
      rw [hraw', hg]
      simp only [BRes.access, bind, BRes.bind, chunkSize, hrd, hck, hw]
      rw [if_neg (by decide), if_pos trivial]
      simp [ilenOf, hraw']
    · rw [w2, hcd]
      by_cases hj : b.offset + i * 65536 ≤ j ∧ j < b.offset + (i + 1) * 65536
      · rw [if_pos (by omega), if_pos hj, getElem?_chunkOf _ (by omega)]
        congr 1; omega
      · rw [if_neg (by omega), if_neg hj]
  · have hnr : ¬ b.Raw i := by
      unfold Block.Raw; rw [hn]; intro hx; cases hx; omega
    refine ⟨out, ?_, rfl, fun hx => absurd hx hnr, fun _ => rfl⟩
    unfold prepChunk
    rw [hn]
    simp only [BRes.access, bind, BRes.bind, chunkSize, bAssert, Bool.true_or, if_true]
    rw [if_neg (by omega), if_neg (by omega)]
    simp only [ilenOf, hn]
    rw [if_neg (by omega)]

/-- The first loop, with assertions compiled out. -/
theorem prepLoop_holds {g : ChunkFn} {b : Block} {data : List Byte} (h : b.Holds g data) (is : List Nat)
    (his : ∀ i ∈ is, i < 16) : ∀ out : List Byte, b.offset + 2 ^ 20 ≤ out.length →
    ∃ out', prepLoop true b is out = .ok (is.map (ilenOf b), out') ∧ out'.length = out.length ∧
      (∀ i ∈ is, b.Raw i → ∀ j, i * 65536 ≤ j → j < (i + 1) * 65536 → out'[b.offset + j]? = data[j]?) ∧
      (∀ j, (∀ i ∈ is, b.Raw i → ¬ (b.offset + i * 65536 ≤ j ∧ j < b.offset + (i + 1) * 65536)) → out'[j]? = out[j]?) := by
  induction is with
  | nil => intro out _; exact ⟨out, rfl, rfl, by simp, by simp⟩
  | cons i is ih =>
    intro out hout
    obtain ⟨o1, h1, l1, r1, n1⟩ := prepChunk_holds h (his i List.mem_cons_self) hout
    obtain ⟨o2, h2, l2, r2, n2⟩ := ih (fun i hi => his i (List.mem_cons_of_mem _ hi)) o1 (by omega)
    refine ⟨o2, ?_, by omega, ?_, ?_⟩
    · show BRes.bind (prepChunk true b i out) _ = _
      rw [h1]
      show BRes.bind (prepLoop true b is o1) _ = _
      rw [h2]
      rfl
    · intro i' hi' hraw j hj1 hj2
      by_cases hin : i' ∈ is
      · exact r2 i' hin hraw j hj1 hj2
      · have : i' = i := by simpa [hin] using hi'
        subst this
        rw [n2 (b.offset + j)]
        · rw [r1 hraw, if_pos (by omega)]
          congr 1; omega
        · intro i'' hi'' hr'' hcon
          have : i'' = i' := by omega
          subst this
          exact hin hi''
    · intro j hj
      rw [n2 j fun i' hi' => hj i' (List.mem_cons_of_mem _ hi')]
      by_cases hraw : b.Raw i
      · rw [r1 hraw, if_neg (hj i List.mem_cons_self hraw)]
      · rw [n1 hraw]

theorem take_drop_eq {l d : List Byte} {off n : Nat} (hd : d.length = n) (hl : off + n ≤ l.length)
    (h : ∀ j < n, l[off + j]? = d[j]?) : (l.drop off).take n = d := by
  apply List.ext_getElem?
  intro j
  by_cases hj : j < n
  · rw [List.getElem?_take_of_lt hj, List.getElem?_drop, h j hj]
  · rw [List.getElem?_take_eq_none (by omega), List.getElem?_eq_none (by omega)]

/-- The call of the chunked function in `handle_block`. -/
theorem decomp_calls {g : ChunkFn} (hk : KeepsSize g) {b : Block} {data : List Byte} (h : b.Holds g data) (ain aout : Nat)
    (rets0 : List (Option Errno)) (out : List Byte) (hr : rets0.length = 16) (hl : 2 ^ 20 ≤ out.length)
    (hpad : 15 * b.padding < 2 ^ 32) :
    ∃ s', trivialChunked g ain aout 16 b.padding 65536 (b.buf.getD []) ((List.range 16).map (ilenOf b))
        ⟨rets0, out, List.replicate 16 65536⟩ = .ok none s' ∧
      s'.out.length = out.length ∧ s'.rets.length = 16 ∧ s'.olens.length = 16 ∧
      (∀ i < 16, s'.olens[i]? = some 65536) ∧
      (∀ i < 16, ¬ b.Raw i → s'.rets[i]? = some none) ∧
      (∀ i < 16, b.Raw i → s'.rets[i]? = rets0[i]?) ∧
      (∀ i < 16, ¬ b.Raw i → ∀ j, i * 65536 ≤ j → j < (i + 1) * 65536 → s'.out[j]? = data[j]?) ∧
      (∀ j, (∀ i < 16, ¬ b.Raw i → ¬ (i * 65536 ≤ j ∧ j < (i + 1) * 65536)) → s'.out[j]? = out[j]?) := by
  have hks := keepsSize_shift hk ain aout
  have hrep : ∀ i < 16, (List.replicate 16 65536)[i]? = some 65536 := by
    intro i hi; rw [List.getElem?_replicate, if_pos hi]
  have hil : ∀ i < 16, ((List.range 16).map (ilenOf b))[i]? = some (ilenOf b i) := by
    intro i hi; rw [List.getElem?_map, List.getElem?_range hi]; rfl
  -- the calls made
  have hcomp : ∀ i < 16, ¬ b.Raw i → ilenOf b i ≠ 2 ^ 64 - 1 ∧ ilenOf b i + i * b.padding ≤ (b.buf.getD []).length ∧
      ∀ a o dst, dst.length = 65536 →
        g a o (((b.buf.getD []).drop (i * b.padding)).take (ilenOf b i)) dst = .ret none 65536 (chunkOf data i) := by
    intro i hi hraw
    obtain ⟨n, m, hn, hpos, hle, hm, hlm, hg⟩ := (h.chunk i hi).resolve_left hraw
    have : ilenOf b i = n := by
      simp only [ilenOf, hn]
      rw [if_neg (by omega)]
    rw [this, hm]
    exact ⟨by omega, by rw [Option.getD_some]; omega, hg⟩
  have hskip : ∀ i < 16, b.Raw i → ilenOf b i = 2 ^ 64 - 1 := by
    intro i hi hraw
    have hraw' : b.sizes[i]? = some 65536 := hraw
    simp [ilenOf, hraw', SIZE_MAX]
  obtain ⟨s', hs⟩ := successive_total (s := ⟨rets0, out, List.replicate 16 65536⟩) hks
    (inp := b.buf.getD []) (ilens := (List.range 16).map (ilenOf b)) (so := fun i => i * b.padding)
    (d := fun i => i * 65536) 16 (by
      intro i hi
      refine ⟨_, hil i hi, fun hns => ?_⟩
      have hraw : ¬ b.Raw i := fun hx => hns (hskip i hi hx)
      obtain ⟨_, c2, c3⟩ := hcomp i hi hraw
      refine ⟨by omega, 65536, hrep i hi, by show i * 65536 + 65536 ≤ out.length; omega, ?_⟩
      intro dst hdst
      exact ⟨_, _, _, c3 _ _ _ hdst⟩)
  have hcall := trivial16 hk (st := b.padding) hpad hr hs
  have hiso := C31_isolation _ hks _ _ _ _ _ _ _ hs (by show 16 ≤ rets0.length; omega) (by
    intro i hi i' hi' hne ol ol' hol hol' _ _
    rw [hrep i hi] at hol
    rw [hrep i' hi'] at hol'
    cases hol; cases hol'
    omega)
  have hw := C31_writes_only_regions _ hks _ _ _ _ _ _ _ hs
  have hlen := hs.lens
  have hl1 : s'.rets.length = 16 := by have := hlen.1; simp only at this; omega
  have hl2 : s'.olens.length = 16 := by have := hlen.2; simp only [List.length_replicate] at this; omega
  -- per chunk
  have hcall' : ∀ i < 16, ¬ b.Raw i → s'.rets[i]? = some none ∧ s'.olens[i]? = some 65536 ∧
      (s'.out.drop (i * 65536)).take 65536 = chunkOf data i := by
    intro i hi hraw
    obtain ⟨c1, c2, c3⟩ := hcomp i hi hraw
    obtain ⟨rc, n, buf, h1, h2, h3, h4⟩ := (hiso i hi).2 _ 65536 (hil i hi) c1 (hrep i hi)
    have hcc := c3 (ain + i * b.padding) (aout + i * 65536) ((out.drop (i * 65536)).take 65536)
      (by rw [List.length_take, List.length_drop]; omega)
    simp only at h1
    rw [hcc] at h1
    cases h1
    exact ⟨h2, h3, h4⟩
  have hraw' : ∀ i < 16, b.Raw i → s'.rets[i]? = rets0[i]? ∧ s'.olens[i]? = some 65536 := by
    intro i hi hraw
    have := (hiso i hi).1 (by rw [hil i hi, hskip i hi hraw])
    exact ⟨this.1, this.2.trans (hrep i hi)⟩
  refine ⟨s', hcall, hw.1, hl1, hl2, ?_, fun i hi hr => (hcall' i hi hr).1, fun i hi hr => (hraw' i hi hr).1, ?_, ?_⟩
  · intro i hi
    by_cases hr : b.Raw i
    · exact (hraw' i hi hr).2
    · exact (hcall' i hi hr).2.1
  · intro i hi hr j h1 h2
    have := congrArg (fun l => l[j - i * 65536]?) (hcall' i hi hr).2.2
    rw [List.getElem?_take_of_lt (by omega), List.getElem?_drop, getElem?_chunkOf _ (by omega)] at this
    rw [show i * 65536 + (j - i * 65536) = j by omega] at this
    exact this
  · intro j hj
    apply hw.2
    intro i hi ol hol hns hcon
    rw [hrep i hi] at hol
    cases hol
    refine hj i hi (fun hx => hns (by rw [hil i hi, hskip i hi hx])) (by omega)

/-- `handle_block` of the decompression stream restores the data, with assertions compiled out. -/
theorem decompBlock_holds {g : ChunkFn} (hk : KeepsSize g) {b : Block} {data : List Byte} (h : b.Holds g data)
    (ptr abuf : Nat) (rets0 : List (Option Errno)) (out : List Byte) (hr : rets0.length = 16)
    (hl : b.offset + 2 ^ 20 ≤ out.length) (hpad : 15 * b.padding < 2 ^ 32) :
    decompBlock true (trivialChunked g) ptr abuf b rets0 out =
      .ok (true, out.take b.offset ++ data ++ out.drop (b.offset + 2 ^ 20)) := by
  obtain ⟨o1, h1, l1, r1, n1⟩ := prepLoop_holds h (List.range 16) (fun i hi => List.mem_range.1 hi) out hl
  obtain ⟨s', h2, l2, -, -, -, -, -, c2, n2⟩ := decomp_calls hk h abuf (ptr + b.offset) rets0 (o1.drop b.offset) hr
    (by rw [List.length_drop]; omega) hpad
  have hp : ptrAdd (some o1) b.offset = .ok (some (o1.drop b.offset)) := ptrAdd_some (by omega)
  have heq : o1.take b.offset ++ s'.out = out.take b.offset ++ data ++ out.drop (b.offset + 2 ^ 20) := by
    have hdl := h.len
    rw [List.append_assoc]
    congr 1
    · apply List.ext_getElem?
      intro j
      by_cases hj : j < b.offset
      · rw [List.getElem?_take_of_lt hj, List.getElem?_take_of_lt hj]
        apply n1
        intro i _ _ hcon
        omega
      · rw [List.getElem?_take_eq_none (by omega), List.getElem?_take_eq_none (by omega)]
    · apply List.ext_getElem?
      intro j
      by_cases hj : j < 2 ^ 20
      · rw [List.getElem?_append_left (by omega)]
        have hi : j / 65536 < 16 := by omega
        by_cases hraw : b.Raw (j / 65536)
        · rw [n2 j, List.getElem?_drop]
          · exact r1 (j / 65536) (List.mem_range.2 hi) hraw j (by omega) (by omega)
          · intro i hi' hr' hcon
            have : i = j / 65536 := by omega
            exact hr' (this ▸ hraw)
        · exact c2 (j / 65536) hi hraw j (by omega) (by omega)
      · rw [List.getElem?_append_right (by omega), List.getElem?_drop, n2 j, List.getElem?_drop, n1]
        · congr 1; omega
        · intro i hi _ hcon
          have := List.mem_range.1 hi
          omega
        · intro i hi _ hcon; omega
  unfold decompBlock
  show BRes.bind (prepLoop true b (List.range 16) out) _ = _
  rw [h1]
  show BRes.bind (ptrAdd (some o1) b.offset) _ = _
  rw [hp]
  simp only [BRes.bind, Option.getD_some, numChunks, chunkSize, h2, bAssert, Bool.true_or, if_true, heq, bind]

/-! ## Builds with assertions -/

theorem prepChunk_debug_raw {b : Block} {i : Nat} {src : List Byte} (hraw : b.Raw i) (hsrc : b.source = some src)
    (out : List Byte) : prepChunk false b i out = .abort := by
  have hraw' : b.sizes[i]? = some 65536 := hraw
  unfold prepChunk Block.getChunk
  rw [hraw', hsrc]
  simp [BRes.access, bind, BRes.bind, bAssert, chunkSize]

theorem prepChunk_debug_comp {g : ChunkFn} {b : Block} {i : Nat} {data : List Byte} (hc : b.Comp g i data)
    (out : List Byte) : prepChunk false b i out = .ok (ilenOf b i, out) := by
  obtain ⟨n, m, hn, hpos, hle, _⟩ := hc
  have h1 : n ≠ 65536 := by omega
  unfold prepChunk
  rw [hn]
  simp only [BRes.access, bind, BRes.bind, bAssert]
  have hcs : chunkSize = 65536 := by decide
  have hct : compressibleThreshold = 65512 := by decide
  have h2 : (false || (decide (0 < n) && decide (n ≤ compressibleThreshold))) = true := by
    simp only [hct, Bool.false_or, Bool.and_eq_true, decide_eq_true_eq]
    omega
  rw [if_neg (show ¬ n = 0 by omega), if_neg (show ¬ n = chunkSize by rw [hcs]; omega), if_pos h2]
  simp only [ilenOf, hn]
  rw [if_neg (by omega)]

theorem prepLoop_debug_raw {g : ChunkFn} {b : Block} {data : List Byte} (h : b.Holds g data) (is : List Nat)
    (his : ∀ i ∈ is, i < 16) (out : List Byte) (hex : ∃ i ∈ is, b.Raw i) : prepLoop false b is out = .abort := by
  induction is with
  | nil => obtain ⟨i, hi, _⟩ := hex; cases hi
  | cons i is ih =>
    by_cases hraw : b.Raw i
    · obtain ⟨src, hsrc, _⟩ := h.raw i (his i List.mem_cons_self) hraw
      show BRes.bind (prepChunk false b i out) _ = _
      rw [prepChunk_debug_raw hraw hsrc]
      rfl
    · have hc := (h.chunk i (his i List.mem_cons_self)).resolve_left hraw
      show BRes.bind (prepChunk false b i out) _ = _
      rw [prepChunk_debug_comp hc]
      show BRes.bind (prepLoop false b is out) _ = _
      rw [ih (fun i hi => his i (List.mem_cons_of_mem _ hi))]
      · rfl
      · obtain ⟨i', hi', hr⟩ := hex
        rcases List.mem_cons.1 hi' with rfl | hi'
        · exact absurd hr hraw
        · exact ⟨i', hi', hr⟩

theorem prepLoop_debug_comp {g : ChunkFn} {b : Block} {data : List Byte} (h : b.Holds g data) (is : List Nat)
    (his : ∀ i ∈ is, i < 16) (out : List Byte) (hno : ∀ i ∈ is, ¬ b.Raw i) :
    prepLoop false b is out = .ok (is.map (ilenOf b), out) := by
  induction is with
  | nil => rfl
  | cons i is ih =>
    have hc := (h.chunk i (his i List.mem_cons_self)).resolve_left (hno i List.mem_cons_self)
    show BRes.bind (prepChunk false b i out) _ = _
    rw [prepChunk_debug_comp hc]
    show BRes.bind (prepLoop false b is out) _ = _
    rw [ih (fun i hi => his i (List.mem_cons_of_mem _ hi)) fun i hi => hno i (List.mem_cons_of_mem _ hi)]
    rfl

theorem decompBlock_debug_raw {g : ChunkFn} {b : Block} {data : List Byte} (h : b.Holds g data) (dc : ChunkedFn)
    (ptr abuf : Nat) (rets0 : List (Option Errno)) (out : List Byte) (hex : ∃ i < 16, b.Raw i) :
    decompBlock false dc ptr abuf b rets0 out = .abort := by
  unfold decompBlock
  show BRes.bind (prepLoop false b (List.range 16) out) _ = _
  rw [prepLoop_debug_raw h _ (fun i hi => List.mem_range.1 hi) out]
  · rfl
  · obtain ⟨i, hi, hr⟩ := hex; exact ⟨i, List.mem_range.2 hi, hr⟩

theorem all_of_get {α : Type} {p : α → Bool} {l : List α} {n : Nat} (hl : l.length = n)
    (h : ∀ i < n, ∃ a, l[i]? = some a ∧ p a = true) : l.all p = true := by
  rw [List.all_eq_true]
  intro x hx
  obtain ⟨i, hi, hxi⟩ := List.getElem_of_mem hx
  obtain ⟨a, ha, hp⟩ := h i (by omega)
  rw [List.getElem?_eq_getElem hi, hxi] at ha
  cases ha
  exact hp

theorem decompBlock_debug_comp {g : ChunkFn} (hk : KeepsSize g) {b : Block} {data : List Byte} (h : b.Holds g data)
    (ptr abuf : Nat) (rets0 : List (Option Errno)) (out : List Byte) (hr : rets0.length = 16)
    (hl : b.offset + 2 ^ 20 ≤ out.length) (hpad : 15 * b.padding < 2 ^ 32) (hno : ∀ i < 16, ¬ b.Raw i) :
    decompBlock false (trivialChunked g) ptr abuf b rets0 out =
      decompBlock true (trivialChunked g) ptr abuf b rets0 out := by
  have hp0 : prepLoop false b (List.range 16) out = .ok ((List.range 16).map (ilenOf b), out) :=
    prepLoop_debug_comp h _ (fun i hi => List.mem_range.1 hi) out fun i hi => hno i (List.mem_range.1 hi)
  have hp1 : prepLoop true b (List.range 16) out = .ok ((List.range 16).map (ilenOf b), out) := by
    obtain ⟨o1, h1, l1, r1, n1⟩ := prepLoop_holds h (List.range 16) (fun i hi => List.mem_range.1 hi) out hl
    rw [h1]
    have : o1 = out := List.ext_getElem? fun j => n1 j fun i hi hr => absurd hr (hno i (List.mem_range.1 hi))
    rw [this]
  obtain ⟨s', h2, l2, l3, l4, ho, hrt, -⟩ := decomp_calls hk h abuf (ptr + b.offset) rets0 (out.drop b.offset) hr
    (by rw [List.length_drop]; omega) hpad
  have hp : ptrAdd (some out) b.offset = .ok (some (out.drop b.offset)) := ptrAdd_some (by omega)
  have key : ∀ nd, prepLoop nd b (List.range 16) out = .ok ((List.range 16).map (ilenOf b), out) →
      decompBlock nd (trivialChunked g) ptr abuf b rets0 out = .ok (true, out.take b.offset ++ s'.out) := by
    intro nd hnd
    unfold decompBlock
    show BRes.bind (prepLoop nd b (List.range 16) out) _ = _
    rw [hnd]
    show BRes.bind (ptrAdd (some out) b.offset) _ = _
    rw [hp]
    have h3 : s'.rets.all (· == none) = true :=
      all_of_get l3 fun i hi => ⟨none, hrt i hi (hno i hi), rfl⟩
    have h4 : s'.olens.all (· == 65536) = true :=
      all_of_get l4 fun i hi => ⟨65536, ho i hi, rfl⟩
    simp only [BRes.bind, Option.getD_some, numChunks, chunkSize, h2, bAssert, h3, h4, Bool.and_self, Bool.or_true,
      if_true, bind]
  rw [key _ hp0, key _ hp1]

/-! ## Arbitrary blocks -/

theorem noErr_bind {σ α β : Type} {x : M σ α} {k : α → M σ β} (hx : ∀ s e s', x s ≠ .err e s')
    (hk : ∀ a s e s', k a s ≠ .err e s') : ∀ s e s', (x >>= k) s ≠ .err e s' := by
  intro s e s'
  show M.bind x k s ≠ _
  have := hx s
  unfold M.bind
  generalize x s = r at this
  cases r with
  | ok a s1 => exact hk a s1 e s'
  | err e1 s1 => exact absurd rfl (this e1 s1)
  | ub => simp
  | timeout => simp

theorem noErr_access {σ α : Type} (a : σ → Option α) : ∀ s e s', M.access a s ≠ .err e s' := by
  intro s e s'
  unfold M.access
  cases a s <;> simp

theorem noErr_update {σ : Type} (a : σ → Option σ) : ∀ s e s', M.update a s ≠ .err e s' := by
  intro s e s'
  unfold M.update
  cases a s <;> simp

/-- The trivial chunked function has no error return. -/
theorem chunkedBody_no_err (f : ChunkFn) (inp : List Byte) (ilens : List Nat) (i so d : Nat) (ret : Option Errno) :
    ∀ s e s', chunkedBody f inp ilens i so d ret s ≠ .err e s' := by
  unfold chunkedBody
  refine noErr_bind (noErr_access _) fun il => ?_
  split
  · intro s e s'; exact fun h => by cases h
  · refine noErr_bind (noErr_access _) fun src => noErr_bind (noErr_access _) fun ol =>
      noErr_bind (noErr_access _) fun dst => ?_
    cases f so d src dst with
    | ub => intro s e s' h; cases h
    | timeout => intro s e s' h; cases h
    | ret rc n buf => exact noErr_bind (noErr_update _) fun _ => noErr_bind (noErr_update _) fun _ s e s' h => by cases h

theorem chunkedLoop_no_err (f : ChunkFn) (nc ist ost : Nat) (inp : List Byte) (ilens : List Nat) :
    ∀ (fuel i so d : Nat) (ret : Option Errno) (s s' : ChState) (e : Errno),
      chunkedLoop f nc ist ost inp ilens fuel i so d ret s ≠ .err e s' := by
  intro fuel
  induction fuel with
  | zero => intros; simp [chunkedLoop, M.timeout]
  | succ fuel ih =>
    intro i so d ret s s' e
    unfold chunkedLoop
    split
    · simp only [bind, M.bind]
      have hb := chunkedBody_no_err f inp ilens i so d ret s
      generalize chunkedBody f inp ilens i so d ret s = r at hb
      cases r with
      | ok a s1 => exact ih _ _ _ _ _ _ _
      | err e' s1 => exact absurd rfl (hb e' s1)
      | ub => simp
      | timeout => simp
    · simp [pure, M.pure]

theorem chunked_no_err (f : ChunkFn) (nc ist ost : Nat) (inp : List Byte) (ilens : List Nat) (s s' : ChState) (e : Errno) :
    chunked f nc ist ost inp ilens s ≠ .err e s' ∧ chunked f nc ist ost inp ilens s ≠ .ok (some e) s' := by
  unfold chunked chunkedF
  simp only [bind, M.bind]
  have hb := chunkedLoop_no_err f nc ist ost inp ilens (nc + 1) 0 0 0 none s
  generalize chunkedLoop f nc ist ost inp ilens (nc + 1) 0 0 0 none s = r at hb
  cases r with
  | ok a s1 => simp [pure, M.pure]
  | err e' s1 => exact absurd rfl (hb s1 e')
  | ub => simp
  | timeout => simp

/-- What a run of `handle_block` of the decompression stream consists of. -/
theorem decompBlock_ok {nd : Bool} {dc : ChunkedFn} {ptr abuf : Nat} {b : Block} {rets0 : List (Option Errno)}
    {out out' : List Byte} {r : Bool} (h : decompBlock nd dc ptr abuf b rets0 out = .ok (r, out')) :
    ∃ ilens o1 s, prepLoop nd b (List.range 16) out = .ok (ilens, o1) ∧ b.offset ≤ o1.length ∧
      out' = o1.take b.offset ++ s.out ∧
      ((r = false ∧ ∃ e, dc abuf (ptr + b.offset) 16 b.padding 65536 (b.buf.getD []) ilens
          ⟨rets0, o1.drop b.offset, List.replicate 16 65536⟩ = .err e s ∨
        dc abuf (ptr + b.offset) 16 b.padding 65536 (b.buf.getD []) ilens
          ⟨rets0, o1.drop b.offset, List.replicate 16 65536⟩ = .ok (some e) s) ∨
       (r = true ∧ dc abuf (ptr + b.offset) 16 b.padding 65536 (b.buf.getD []) ilens
          ⟨rets0, o1.drop b.offset, List.replicate 16 65536⟩ = .ok none s ∧
          (nd = false → (s.rets.all (· == none) && s.olens.all (· == 65536)) = true))) := by
  unfold decompBlock at h
  replace h : BRes.bind (prepLoop nd b (List.range 16) out) _ = _ := h
  cases hp : prepLoop nd b (List.range 16) out with
  | abort => rw [hp] at h; cases h
  | ub => rw [hp] at h; cases h
  | timeout => rw [hp] at h; cases h
  | ok p =>
    obtain ⟨ilens, o1⟩ := p
    rw [hp] at h
    replace h : BRes.bind (ptrAdd (some o1) b.offset) _ = _ := h
    by_cases hle : b.offset ≤ o1.length
    · rw [ptrAdd_some hle] at h
      simp only [BRes.bind, Option.getD_some, numChunks, chunkSize] at h
      generalize hd : dc abuf (ptr + b.offset) 16 b.padding 65536 (b.buf.getD []) ilens
          ⟨rets0, o1.drop b.offset, List.replicate 16 65536⟩ = res at h
      cases res with
      | ub => cases h
      | timeout => cases h
      | err e s =>
        simp only [BRes.ok.injEq, Prod.mk.injEq] at h
        exact ⟨ilens, o1, s, rfl, hle, h.2.symm, .inl ⟨h.1.symm, e, .inl hd⟩⟩
      | ok rc s =>
        cases rc with
        | some e =>
          simp only [BRes.ok.injEq, Prod.mk.injEq] at h
          exact ⟨ilens, o1, s, rfl, hle, h.2.symm, .inl ⟨h.1.symm, e, .inr hd⟩⟩
        | none =>
          simp only [bAssert, bind, BRes.bind] at h
          split at h
          · rename_i hx
            split at hx
            · rename_i hcond
              simp only [BRes.ok.injEq, Prod.mk.injEq] at h
              refine ⟨ilens, o1, s, rfl, hle, h.2.symm, .inr ⟨h.1.symm, hd, fun hnd => ?_⟩⟩
              subst hnd
              simpa using hcond
            · cases hx
          all_goals cases h
    · have : ptrAdd (some o1) b.offset = .ub := by
        show (if b.offset ≤ o1.length then _ else _) = _
        rw [if_neg hle]
      rw [this] at h
      cases h

/-- The first loop in a build with assertions, when it succeeds. -/
theorem prepLoop_debug_ok {b : Block} (is : List Nat) : ∀ {out o1 : List Byte} {ilens : List Nat},
    prepLoop false b is out = .ok (ilens, o1) →
    o1 = out ∧ ilens = is.map (ilenOf b) ∧ ∀ i ∈ is, ∃ n, b.sizes[i]? = some n ∧ n ≤ 65512 := by
  induction is with
  | nil => intro out o1 ilens h; cases h; exact ⟨rfl, rfl, by simp⟩
  | cons i is ih =>
    intro out o1 ilens h
    replace h : BRes.bind (prepChunk false b i out) _ = _ := h
    have key : ∀ l o2, prepChunk false b i out = .ok (l, o2) →
        o2 = out ∧ l = ilenOf b i ∧ ∃ n, b.sizes[i]? = some n ∧ n ≤ 65512 := by
      intro l o2 hx
      unfold prepChunk at hx
      cases hn : b.sizes[i]? with
      | none => rw [hn] at hx; simp [BRes.access, bind, BRes.bind] at hx
      | some n =>
        rw [hn] at hx
        simp only [BRes.access, bind, BRes.bind] at hx
        by_cases h0 : n = 0
        · subst h0
          simp only [if_true, BRes.ok.injEq, Prod.mk.injEq] at hx
          exact ⟨hx.2.symm, by simp [ilenOf, hn, ← hx.1], 0, rfl, by decide⟩
        · rw [if_neg h0] at hx
          by_cases h1 : n = chunkSize
          · exfalso
            rw [if_pos h1] at hx
            unfold Block.getChunk at hx
            rw [hn] at hx
            simp only [BRes.access, bind, BRes.bind] at hx
            rw [if_neg h0, if_pos h1] at hx
            cases hs : b.source with
            | some src => simp [hs, bAssert] at hx
            | none =>
              simp only [hs, bAssert, Option.isNone_none, Bool.or_true, if_true, ptrAdd] at hx
              by_cases hz : i * chunkSize = 0
              · rw [if_pos hz] at hx; simp [ptrRead, BRes.access] at hx
              · rw [if_neg hz] at hx; simp at hx
          · rw [if_neg h1] at hx
            simp only [bAssert, Bool.false_or] at hx
            split at hx
            · rename_i hy
              split at hy
              · rename_i hcond
                simp only [BRes.ok.injEq, Prod.mk.injEq] at hx
                have hct : compressibleThreshold = 65512 := by decide
                have hcs : chunkSize = 65536 := by decide
                rw [hct] at hcond
                rw [hcs] at h1
                simp only [Bool.and_eq_true, decide_eq_true_eq] at hcond
                refine ⟨hx.2.symm, ?_, n, rfl, hcond.2⟩
                rw [← hx.1]
                simp only [ilenOf, hn]
                rw [if_neg (by rintro (h | h); exacts [h0 h, h1 h])]
              · cases hy
            all_goals cases hx
    cases hp : prepChunk false b i out with
    | abort => rw [hp] at h; cases h
    | ub => rw [hp] at h; cases h
    | timeout => rw [hp] at h; cases h
    | ok p =>
      obtain ⟨l, o2⟩ := p
      obtain ⟨k1, k2, k3⟩ := key l o2 hp
      subst k1
      rw [hp] at h
      replace h : BRes.bind (prepLoop false b is o2) _ = _ := h
      cases hp2 : prepLoop false b is o2 with
      | abort => rw [hp2] at h; cases h
      | ub => rw [hp2] at h; cases h
      | timeout => rw [hp2] at h; cases h
      | ok p =>
        obtain ⟨ls, o3⟩ := p
        obtain ⟨j1, j2, j3⟩ := ih hp2
        rw [hp2] at h
        simp only [BRes.bind, BRes.ok.injEq, Prod.mk.injEq] at h
        refine ⟨h.2 ▸ j1, ?_, ?_⟩
        · rw [← h.1, k2, j2]; rfl
        · intro i' hi'
          rcases List.mem_cons.1 hi' with rfl | hi'
          · exact k3
          · exact j3 i' hi'

/-- A block without raw chunks on which all calls return, with assertions compiled out. -/
theorem decompBlock_total {g : ChunkFn} (hk : KeepsSize g) {b : Block} (ptr abuf : Nat) (rets0 : List (Option Errno))
    (out : List Byte) (hr : rets0.length = 16) (hl : b.offset + 2 ^ 20 ≤ out.length) (hpad : 15 * b.padding < 2 ^ 32)
    (hb : ∀ i < 16, ∃ n, b.sizes[i]? = some n ∧ n ≠ 65536 ∧ (n ≠ 0 → i * b.padding + n ≤ (b.buf.getD []).length ∧
      ∀ a o dst, dst.length = 65536 → ∃ rc n' buf',
        g a o (((b.buf.getD []).drop (i * b.padding)).take n) dst = .ret rc n' buf')) :
    ∃ out', decompBlock true (trivialChunked g) ptr abuf b rets0 out = .ok (true, out') := by
  have hprep : ∀ is : List Nat, (∀ i ∈ is, i < 16) → prepLoop true b is out = .ok (is.map (ilenOf b), out) := by
    intro is
    induction is with
    | nil => intro _; rfl
    | cons i is ih =>
      intro his
      obtain ⟨n, hn, hn1, _⟩ := hb i (his i List.mem_cons_self)
      have hcs : chunkSize = 65536 := by decide
      have hc : prepChunk true b i out = .ok (ilenOf b i, out) := by
        unfold prepChunk
        rw [hn]
        simp only [BRes.access, bind, BRes.bind, bAssert, Bool.true_or, if_true]
        by_cases h0 : n = 0
        · rw [if_pos h0]; simp [ilenOf, hn, h0]
        · rw [if_neg h0, if_neg (by rw [hcs]; exact hn1)]
          simp only [ilenOf, hn]
          rw [if_neg (by rintro (h | h); exacts [h0 h, hn1 h])]
      show BRes.bind (prepChunk true b i out) _ = _
      rw [hc]
      show BRes.bind (prepLoop true b is out) _ = _
      rw [ih fun i hi => his i (List.mem_cons_of_mem _ hi)]
      rfl
  have hks := keepsSize_shift hk abuf (ptr + b.offset)
  have hrep : ∀ i < 16, (List.replicate 16 65536)[i]? = some 65536 := by
    intro i hi; rw [List.getElem?_replicate, if_pos hi]
  obtain ⟨s', hs⟩ := successive_total (s := ⟨rets0, out.drop b.offset, List.replicate 16 65536⟩) hks
    (inp := b.buf.getD []) (ilens := (List.range 16).map (ilenOf b)) (so := fun i => i * b.padding)
    (d := fun i => i * 65536) 16 (by
      intro i hi
      obtain ⟨n, hn, hn1, hn2⟩ := hb i hi
      refine ⟨ilenOf b i, by rw [List.getElem?_map, List.getElem?_range hi]; rfl, fun hns => ?_⟩
      have h0 : n ≠ 0 := by
        intro h0; subst h0; exact hns (by simp [ilenOf, hn, SIZE_MAX])
      have : ilenOf b i = n := by
        simp only [ilenOf, hn]
        rw [if_neg (by rintro (h | h); exacts [h0 h, hn1 h])]
      rw [this]
      obtain ⟨h1, h2⟩ := hn2 h0
      refine ⟨h1, 65536, hrep i hi, ?_, fun dst hdst => h2 _ _ _ hdst⟩
      show i * 65536 + 65536 ≤ (out.drop b.offset).length
      rw [List.length_drop]
      omega)
  have hcall := trivial16 hk (st := b.padding) hpad hr hs
  refine ⟨out.take b.offset ++ s'.out, ?_⟩
  unfold decompBlock
  show BRes.bind (prepLoop true b (List.range 16) out) _ = _
  rw [hprep _ fun i hi => List.mem_range.1 hi]
  show BRes.bind (ptrAdd (some out) b.offset) _ = _
  rw [ptrAdd_some (by omega)]
  simp only [BRes.bind, Option.getD_some, numChunks, chunkSize, hcall, bAssert, Bool.true_or, if_true, bind]

end Lib842
