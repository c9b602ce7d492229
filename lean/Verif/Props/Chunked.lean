import Verif.Model.Chunked
import Verif.Props.Opt
import Verif.Props.Sw
/-!
# C29 - C31: the multi-chunk entry points
-/

namespace Lib842.Props

open Lib842 Lib842.Spec

/-! ## What "calling the function in succession" means -/

/-- Chunk `i` at input offset `so` and output offset `d`: skipped if its length is
`SIZE_MAX`, otherwise one call on its input bytes and its output region; result code and
length are stored, the region gets the new contents. -/
inductive ChunkStep (f : ChunkFn) (inp : List Byte) (ilens : List Nat) (i so d : Nat) :
    ChState → ChState → Prop
  | skip {s : ChState} (h : ilens[i]? = some (2 ^ 64 - 1)) : ChunkStep f inp ilens i so d s s
  | call {s : ChState} {il ol n : Nat} {rc : Option Errno} {buf : List Byte}
      (hil : ilens[i]? = some il) (hns : il ≠ 2 ^ 64 - 1) (hin : so + il ≤ inp.length)
      (hol : s.olens[i]? = some ol) (hout : d + ol ≤ s.out.length)
      (hf : f so d ((inp.drop so).take il) ((s.out.drop d).take ol) = .ret rc n buf) :
      ChunkStep f inp ilens i so d s
        { rets := s.rets.set i rc
          out := s.out.take d ++ buf ++ s.out.drop (d + ol)
          olens := s.olens.set i n }

/-- The first `k` chunks one after the other, chunk `i` at offsets `so i` and `d i` -/
inductive Successive (f : ChunkFn) (inp : List Byte) (ilens : List Nat) (so d : Nat → Nat) :
    Nat → ChState → ChState → Prop
  | zero {s : ChState} : Successive f inp ilens so d 0 s s
  | succ {k : Nat} {s s1 s2 : ChState} : Successive f inp ilens so d k s s1 →
      ChunkStep f inp ilens k (so k) (d k) s1 s2 → Successive f inp ilens so d (k + 1) s s2

/-- A single-chunk function leaves the size of the output region alone. -/
def KeepsSize (f : ChunkFn) : Prop :=
  ∀ so d src dst rc n buf, f so d src dst = .ret rc n buf → buf.length = dst.length

/-! ## Helper lemmas -/

theorem chunkedBody_iff {f : ChunkFn} (hk : KeepsSize f) (inp : List Byte) (ilens : List Nat)
    (i so d : Nat) (ret : Option Errno) (s s' : ChState) (hr : i < s.rets.length) :
    (∃ r, chunkedBody f inp ilens i so d ret s = .ok r s') ↔ ChunkStep f inp ilens i so d s s' := by
  unfold chunkedBody
  constructor
  · rintro ⟨r, h⟩
    rcases hil : ilens[i]? with _ | il
    · rw [M.bind_def] at h; simp only [M.access, hil] at h; cases h
    rw [M.access_bind_some (by exact hil)] at h
    by_cases hsm : il = SIZE_MAX
    · rw [if_pos hsm] at h
      cases h
      exact .skip (by rw [hil, hsm]; rfl)
    rw [if_neg hsm] at h
    by_cases hin : so + il ≤ inp.length
    swap
    · rw [M.bind_def] at h; simp only [M.access, readBytes, if_neg hin] at h; cases h
    have e1 : readBytes inp so il = some ((inp.drop so).take il) := if_pos hin
    rw [M.access_bind_some (g := fun _ : ChState => readBytes inp so il) e1] at h
    rcases hol : s.olens[i]? with _ | ol
    · rw [M.bind_def] at h; simp only [M.access, hol] at h; cases h
    rw [M.access_bind_some (g := fun s : ChState => s.olens[i]?) hol] at h
    by_cases hout : d + ol ≤ s.out.length
    swap
    · rw [M.bind_def] at h; simp only [M.access, readBytes, if_neg hout] at h; cases h
    have e2 : readBytes s.out d ol = some ((s.out.drop d).take ol) := if_pos hout
    rw [M.access_bind_some (g := fun s : ChState => readBytes s.out d ol) e2] at h
    rcases hf : f so d ((inp.drop so).take il) ((s.out.drop d).take ol) with ⟨rc, n, buf⟩ | _ | _
    · rw [hf] at h
      have hl := hk _ _ _ _ _ _ _ hf
      have hl' : buf.length = ol := by rw [hl, List.length_take, List.length_drop]; omega
      have e3 : (writeBytes s.out d buf).map (fun o => { s with out := o }) =
          some { s with out := s.out.take d ++ buf ++ s.out.drop (d + ol) } := by
        simp only [writeBytes, hl', if_pos hout, Option.map_some]
      simp only at h
      rw [M.update_bind_some (g := fun s : ChState => (writeBytes s.out d buf).map fun o => { s with out := o }) e3,
        M.update_bind_some (g := fun s : ChState => if i < s.rets.length then
          some { s with rets := s.rets.set i rc, olens := s.olens.set i n } else none)
          (s := { s with out := s.out.take d ++ buf ++ s.out.drop (d + ol) }) (if_pos hr)] at h
      cases h
      exact .call hil (by simpa [SIZE_MAX] using hsm) hin hol hout hf
    · rw [hf] at h; cases h
    · rw [hf] at h; cases h
  · intro h
    cases h with
    | skip h =>
      rw [M.access_bind_some (by exact h), if_pos (by rfl)]
      exact ⟨_, rfl⟩
    | @call il ol n rc buf hil hns hin hol hout hf =>
      have e1 : readBytes inp so il = some ((inp.drop so).take il) := if_pos hin
      have e2 : readBytes s.out d ol = some ((s.out.drop d).take ol) := if_pos hout
      rw [M.access_bind_some (by exact hil), if_neg (by simpa [SIZE_MAX] using hns),
        M.access_bind_some (g := fun _ : ChState => readBytes inp so il) e1, M.access_bind_some (g := fun s : ChState => s.olens[i]?) hol,
        M.access_bind_some (g := fun s : ChState => readBytes s.out d ol) e2, hf]
      have hl := hk _ _ _ _ _ _ _ hf
      have hl' : buf.length = ol := by rw [hl, List.length_take, List.length_drop]; omega
      have e3 : (writeBytes s.out d buf).map (fun o => { s with out := o }) =
          some { s with out := s.out.take d ++ buf ++ s.out.drop (d + ol) } := by
        simp only [writeBytes, hl', if_pos hout, Option.map_some]
      simp only
      rw [M.update_bind_some (g := fun s : ChState => (writeBytes s.out d buf).map fun o => { s with out := o }) e3,
        M.update_bind_some (g := fun s : ChState => if i < s.rets.length then
          some { s with rets := s.rets.set i rc, olens := s.olens.set i n } else none)
          (s := { s with out := s.out.take d ++ buf ++ s.out.drop (d + ol) }) (if_pos hr)]
      exact ⟨_, rfl⟩

theorem ChunkStep.lens {f : ChunkFn} {inp : List Byte} {ilens : List Nat} {i so d : Nat}
    {s s' : ChState} (h : ChunkStep f inp ilens i so d s s') :
    s'.rets.length = s.rets.length ∧ s'.olens.length = s.olens.length := by
  cases h <;> simp

theorem Successive.lens {f : ChunkFn} {inp : List Byte} {ilens : List Nat} {so d : Nat → Nat} {k : Nat}
    {s s' : ChState} (h : Successive f inp ilens so d k s s') :
    s'.rets.length = s.rets.length ∧ s'.olens.length = s.olens.length := by
  induction h with
  | zero => exact ⟨rfl, rfl⟩
  | succ _ h ih => exact ⟨h.lens.1.trans ih.1, h.lens.2.trans ih.2⟩

theorem chunkedLoop_ok {f : ChunkFn} (hk : KeepsSize f) {N istride ostride : Nat} (hN : N < 2 ^ 32)
    {inp : List Byte} {ilens : List Nat} {s0 s' : ChState} (hr : N ≤ s0.rets.length) :
    ∀ fuel i ret s, i ≤ N →
      Successive f inp ilens (fun i => i * istride % 2 ^ 32) (fun i => i * ostride % 2 ^ 32) i s0 s →
      chunkedLoop f N istride ostride inp ilens fuel i (i * istride % 2 ^ 32) (i * ostride % 2 ^ 32)
        ret s = .ok () s' →
      Successive f inp ilens (fun i => i * istride % 2 ^ 32) (fun i => i * ostride % 2 ^ 32) N s0 s' := by
  intro fuel
  induction fuel with
  | zero => intro i ret s _ _ h; cases h
  | succ fuel ih =>
    intro i ret s hi hs h
    unfold chunkedLoop at h
    by_cases hlt : i < N
    · rw [if_pos hlt, M.bind_def] at h
      generalize hb : chunkedBody f inp ilens i (i * istride % 2 ^ 32) (i * ostride % 2 ^ 32) ret s = r at h
      cases r with
      | ok r s1 =>
        have hst := (chunkedBody_iff hk inp ilens i _ _ ret s s1 (by have := hs.lens.1; omega)).1 ⟨r, hb⟩
        simp only at h
        rw [Nat.mod_eq_of_lt (by omega : i + 1 < 2 ^ 32),
          Nat.mod_add_mod, Nat.mod_add_mod, ← Nat.succ_mul, ← Nat.succ_mul] at h
        exact ih (i + 1) r s1 (by omega) (.succ hs hst) h
      | err _ _ => cases h
      | ub => cases h
      | timeout => cases h
    · rw [if_neg hlt] at h
      cases h
      have : i = N := by omega
      subst this
      exact hs

theorem chunkedLoop_of {f : ChunkFn} (hk : KeepsSize f) {N istride ostride : Nat} (hN : N < 2 ^ 32)
    {inp : List Byte} {ilens : List Nat} {s0 : ChState} (hr : N ≤ s0.rets.length) {k : Nat} {s : ChState}
    (h : Successive f inp ilens (fun i => i * istride % 2 ^ 32) (fun i => i * ostride % 2 ^ 32) k s0 s) :
    k ≤ N → ∃ ret, chunkedLoop f N istride ostride inp ilens (N + 1) 0 0 0 none s0 =
      chunkedLoop f N istride ostride inp ilens (N + 1 - k) k (k * istride % 2 ^ 32)
        (k * ostride % 2 ^ 32) ret s := by
  induction h with
  | zero => intro _; exact ⟨none, by simp⟩
  | @succ k s0 s1 s2 hs hst ih =>
    intro hk'
    obtain ⟨ret, hr'⟩ := ih hr (by omega)
    obtain ⟨r, hb⟩ := (chunkedBody_iff hk inp ilens k _ _ ret s1 s2 (by have := hs.lens.1; omega)).2 hst
    refine ⟨r, hr'.trans ?_⟩
    obtain ⟨m, hm⟩ : ∃ m, N + 1 - k = m + 1 := ⟨N - k, by omega⟩
    have hm' : N + 1 - (k + 1) = m := by omega
    rw [hm, hm']
    conv_lhs => unfold chunkedLoop
    rw [if_pos (by omega), M.bind_ok hb]
    rw [Nat.mod_eq_of_lt (by omega : k + 1 < 2 ^ 32),
          Nat.mod_add_mod, Nat.mod_add_mod, ← Nat.succ_mul, ← Nat.succ_mul]

theorem Successive.congr {f : ChunkFn} {inp : List Byte} {ilens : List Nat} {so d so' d' : Nat → Nat}
    {k : Nat} {s s' : ChState} (h : Successive f inp ilens so d k s s')
    (hs : ∀ i < k, so i = so' i) (hd : ∀ i < k, d i = d' i) : Successive f inp ilens so' d' k s s' := by
  induction h with
  | zero => exact .zero
  | succ _ hst ih =>
    refine .succ (ih (fun i hi => hs i (by omega)) (fun i hi => hd i (by omega))) ?_
    rw [← hs _ (Nat.lt_succ_self _), ← hd _ (Nat.lt_succ_self _)]
    exact hst

/-! ## C29 -/

/-- What the multi-chunk functions compute, for fewer than `2^32` chunks: chunk `i` is
processed by one call at the offsets `i * istride` and `i * ostride` reduced modulo `2^32`; the
return value is 0. -/
theorem C29_chunked_exact (f : ChunkFn) (hk : KeepsSize f) (numchunks istride ostride : Nat)
    (inp : List Byte) (ilens : List Nat) (s s' : ChState) (rc : Option Errno) (hn : numchunks < 2 ^ 32)
    (hr : numchunks ≤ s.rets.length) :
    chunked f numchunks istride ostride inp ilens s = .ok rc s' ↔
      rc = none ∧ Successive f inp ilens (fun i => i * istride % 2 ^ 32)
        (fun i => i * ostride % 2 ^ 32) numchunks s s' := by
  unfold chunked chunkedF
  constructor
  · intro h
    rw [M.bind_def] at h
    generalize hl : chunkedLoop f numchunks istride ostride inp ilens (numchunks + 1) 0 0 0 none s = r at h
    cases r with
    | ok u s1 =>
      cases h
      refine ⟨rfl, chunkedLoop_ok hk hn hr (numchunks + 1) 0 none s (by omega) .zero ?_⟩
      simpa using hl
    | err _ _ => cases h
    | ub => cases h
    | timeout => cases h
  · rintro ⟨rfl, h⟩
    obtain ⟨ret, hl⟩ := chunkedLoop_of hk hn hr h (by omega)
    have h1 : numchunks + 1 - numchunks = 0 + 1 := by omega
    have h2 : chunkedLoop f numchunks istride ostride inp ilens (0 + 1) numchunks
        (numchunks * istride % 2 ^ 32) (numchunks * ostride % 2 ^ 32) ret s' = .ok () s' := by
      unfold chunkedLoop
      rw [if_neg (by omega)]
      rfl
    rw [h1, h2] at hl
    rw [M.bind_ok hl]
    rfl

/-- C29, the part that holds: fewer than `2^32` chunks and all chunk offsets below `2^32`.
Then a multi-chunk call is exactly the succession of single calls, chunk `i` at `in + i * istride`
and `out + i * ostride`.  Missing: larger offsets (`C29_chunked_false`) and `2^32` or more
chunks (`C29_never_returns`). -/
theorem C29_chunked_partial (f : ChunkFn) (hk : KeepsSize f) (numchunks istride ostride : Nat)
    (inp : List Byte) (ilens : List Nat) (s s' : ChState) (rc : Option Errno) (hn : numchunks < 2 ^ 32)
    (hr : numchunks ≤ s.rets.length)
    (hi : (numchunks - 1) * istride < 2 ^ 32) (ho : (numchunks - 1) * ostride < 2 ^ 32) :
    chunked f numchunks istride ostride inp ilens s = .ok rc s' ↔
      rc = none ∧ Successive f inp ilens (fun i => i * istride) (fun i => i * ostride) numchunks s s' := by
  rw [C29_chunked_exact f hk numchunks istride ostride inp ilens s s' rc hn hr]
  have h1 : ∀ st, (numchunks - 1) * st < 2 ^ 32 → ∀ i < numchunks, i * st % 2 ^ 32 = i * st := by
    intro st hst i hi
    exact Nat.mod_eq_of_lt (lt_of_le_of_lt (Nat.mul_le_mul_right _ (by omega)) hst)
  refine and_congr_right fun _ => ⟨fun h => ?_, fun h => ?_⟩
  · exact h.congr (fun i hi' => h1 _ hi i hi') (fun i hi' => h1 _ ho i hi')
  · exact h.congr (fun i hi' => (h1 _ hi i hi').symm) (fun i hi' => (h1 _ ho i hi').symm)

/-- The single-chunk functions the macro is instantiated with; `ain` and `aout` are the
addresses of the two buffers. -/
def swCompFn (e : Endian) (ain : Nat) (j : CompJunk) : ChunkFn :=
  fun so _ src dst => sw842Compress e (ain + so) j src dst
def swDecompFn (e : Endian) (aout : Nat) : ChunkFn :=
  fun _ d src dst => sw842Decompress e (aout + d) src dst
def optCompFn (e : Endian) (ain aout : Nat) (j : OptJunk) (jsw : CompJunk) : ChunkFn :=
  fun so d src dst => optsw842Compress e (ain + so) (aout + d) j jsw src dst
def optDecompFn (e : Endian) (ain aout : Nat) : ChunkFn :=
  fun so d src dst => optsw842Decompress e (ain + so) (aout + d) src dst

/-- The hypothesis `KeepsSize` of the theorems above is met by all four functions. -/
theorem C29_functions_keep_size (e : Endian) (ain aout : Nat) (j : OptJunk) (jsw : CompJunk) :
    KeepsSize (swCompFn e ain jsw) ∧ KeepsSize (swDecompFn e aout) ∧
    KeepsSize (optCompFn e ain aout j jsw) ∧ KeepsSize (optDecompFn e ain aout) := by
  refine ⟨?_, ?_, ?_, ?_⟩
  · intro so d src dst rc n buf h
    obtain ⟨_, _, rc', n', b', h', hl⟩ := C04_sw_compress_in_bounds e (ain + so) jsw src dst
    unfold swCompFn at h
    rw [h'] at h
    cases h; exact hl
  · intro so d src dst rc n buf h
    exact C05_sw_decompress_buffer_size e _ src dst rc n buf h
  · intro so d src dst rc n buf h
    unfold optCompFn at h
    obtain ⟨hub, _, hne⟩ := C04_opt_compress_in_bounds e (ain + so) (aout + d) j jsw src dst
    by_cases hs : src = []
    · by_cases hal : (ain + so) % 8 = 0 ∧ (aout + d) % 8 = 0
      · rw [hub.2 ⟨hs, hal⟩] at h; cases h
      · subst hs
        unfold optsw842Compress optsw842CompressF at h
        rw [if_neg (by simp), if_pos (by omega)] at h
        obtain ⟨_, _, rc', n', b', h', hl⟩ := C04_sw_compress_in_bounds e (ain + so) jsw [] dst
        have : sw842CompressF (([] : List Byte).length / 8 + 1) e (ain + so) jsw [] dst =
          sw842Compress e (ain + so) jsw [] dst := rfl
        rw [this, h'] at h
        cases h; exact hl
    · obtain ⟨rc', n', b', h', hl⟩ := hne hs
      rw [h'] at h; cases h; exact hl
  · intro so d src dst rc n buf h
    unfold optDecompFn at h
    by_cases hal : (ain + so) % 8 = 0 ∧ (aout + d) % 8 = 0
    · obtain ⟨_, rc', n', b', h', hl⟩ := C06_opt_decompress_memory_safe e (ain + so) (aout + d) src dst hal
      rw [h'] at h; cases h; exact hl
    · have : optsw842Decompress e (ain + so) (aout + d) src dst = sw842Decompress e (aout + d) src dst := by
        unfold optsw842Decompress optsw842DecompressF
        rw [if_pos (by omega)]
        rfl
      rw [this] at h
      exact C05_sw_decompress_buffer_size e _ src dst rc n buf h

/-- Non-trivial instance: two chunks of `sw842_compress`, the second one skipped -/
example : (2 : Nat) < 2 ^ 32 ∧ (2 - 1) * 8 < 2 ^ 32 ∧
    (match chunked (swCompFn .little 0 junk0) 2 8 16 [1, 2, 3, 4, 5, 6, 7, 8] [8, SIZE_MAX]
      ⟨[some .EINVAL, some .EINVAL], List.replicate 16 0xaa, [16, 5]⟩ with
      | .ok none s => s.rets == [none, some .EINVAL] && s.olens == [16, 5]
      | _ => false) = true := by decide +kernel

/-- Two chunks whose input is `N` bytes apart, `N` a multiple of `2^32` -/
theorem c29_aux (N : Nat) (h32 : N % 2 ^ 32 = 0) (h8 : 8 ≤ N) :
    ∃ s', chunked (swCompFn .little 0 junk0) 2 N 16
        (List.replicate N 0 ++ [1, 2, 3, 4, 5, 6, 7, 8]) [8, 8]
        ⟨[none, none], List.replicate 32 0xaa, [16, 16]⟩ = .ok none s' ∧
      ¬ Successive (swCompFn .little 0 junk0) (List.replicate N 0 ++ [1, 2, 3, 4, 5, 6, 7, 8]) [8, 8]
        (fun i => i * N) (fun i => i * 16) 2 ⟨[none, none], List.replicate 32 0xaa, [16, 16]⟩ s' := by
  obtain ⟨hk, _⟩ := C29_functions_keep_size .little 0 0 ojunk0 junk0
  have hlen : (List.replicate N (0 : Byte) ++ [1, 2, 3, 4, 5, 6, 7, 8]).length = N + 8 := by simp
  have ht0 : (List.replicate N (0 : Byte) ++ [1, 2, 3, 4, 5, 6, 7, 8]).take 8 = List.replicate 8 0 := by
    rw [List.take_append_of_le_length (by simpa using h8), List.take_replicate, Nat.min_eq_left h8]
  have ht1 : ((List.replicate N (0 : Byte) ++ [1, 2, 3, 4, 5, 6, 7, 8]).drop N).take 8 =
      [1, 2, 3, 4, 5, 6, 7, 8] := by
    rw [List.drop_append_of_le_length (by simp)]; simp
  have hz : sw842Compress .little 0 junk0 (List.replicate 8 0) (List.replicate 16 0xaa) =
      .ret none 8 [0xe7, 0x80, 0, 0, 0, 0, 0, 0, 0, 0xaa, 0xaa, 0xaa, 0xaa, 0xaa, 0xaa, 0xaa] := by
    decide +kernel
  have h16 : sw842Compress .little 0 junk0 [1, 2, 3, 4, 5, 6, 7, 8] (List.replicate 16 0xaa) =
      .ret none 16 [0x00, 0x08, 0x10, 0x18, 0x20, 0x28, 0x30, 0x38, 0x47, 0x9f, 0x43, 0xcd, 0xa0, 0x40, 0, 0] := by
    decide +kernel
  let b : List Byte := [0xe7, 0x80, 0, 0, 0, 0, 0, 0, 0, 0xaa, 0xaa, 0xaa, 0xaa, 0xaa, 0xaa, 0xaa]
  refine ⟨⟨[none, none], b ++ b, [8, 8]⟩, ?_, ?_⟩
  · rw [C29_chunked_exact _ hk _ _ _ _ _ _ _ _ (by norm_num) (by simp)]
    refine ⟨rfl, .succ (s1 := ⟨[none, none], b ++ List.replicate 16 0xaa, [8, 16]⟩) (.succ .zero ?_) ?_⟩
    · have := ChunkStep.call (f := swCompFn .little 0 junk0)
        (inp := List.replicate N 0 ++ [1, 2, 3, 4, 5, 6, 7, 8]) (ilens := [8, 8]) (i := 0)
        (so := 0 * N % 2 ^ 32) (d := 0 * 16 % 2 ^ 32) (s := ⟨[none, none], List.replicate 32 0xaa, [16, 16]⟩)
        (il := 8) (ol := 16) (n := 8) (rc := none) (buf := b) rfl (by norm_num)
        (by rw [hlen]; simp) rfl (by simp) (by
          rw [Nat.zero_mul, Nat.zero_mod, List.drop_zero, ht0]; exact hz)
      exact this
    · have := ChunkStep.call (f := swCompFn .little 0 junk0)
        (inp := List.replicate N 0 ++ [1, 2, 3, 4, 5, 6, 7, 8]) (ilens := [8, 8]) (i := 1)
        (so := 1 * N % 2 ^ 32) (d := 1 * 16 % 2 ^ 32)
        (s := ⟨[none, none], b ++ List.replicate 16 0xaa, [8, 16]⟩)
        (il := 8) (ol := 16) (n := 8) (rc := none) (buf := b) rfl (by norm_num)
        (by rw [hlen, Nat.one_mul, h32]; omega) rfl (by simp [b]) (by
          rw [Nat.one_mul, h32, List.drop_zero, ht0]; exact hz)
      exact this
  · intro h
    cases h with
    | @succ _ _ s1 _ h1 hst =>
    have hl1 := h1.lens
    generalize hs' : (⟨[none, none], b ++ b, [8, 8]⟩ : ChState) = s2 at hst
    cases hst with
    | skip h => simp at h
    | @call il ol n rc buf hil hns hin hol hout hf =>
      have hil8 : il = 8 := by simpa using hil.symm
      subst hil8
      rw [Nat.one_mul, ht1] at hf
      have e1 : s1.rets.set 1 rc = [none, none] := (congrArg ChState.rets hs').symm
      have e2 : s1.olens.set 1 n = [8, 8] := (congrArg ChState.olens hs').symm
      have hrc : rc = none := by
        have := congrArg (fun l : List (Option Errno) => l[1]?) e1
        simp only [List.getElem?_set, if_true] at this
        rw [if_pos (by rw [hl1.1]; simp)] at this
        simpa using this
      have hn : n = 8 := by
        have := congrArg (fun l : List Nat => l[1]?) e2
        simp only [List.getElem?_set, if_true] at this
        rw [if_pos (by rw [hl1.2]; simp)] at this
        simpa using this
      subst hrc hn
      have := (C07_sw_length_contract _ _ _ _ _ _ _ _ _ _ _ _ _ h16 hf).2.2.2.2.1
      omega

/-- C29 is false: with the two input chunks 4 GiB apart, `sw842_compress_chunked` compresses
the first chunk twice, because the offset is kept in an `unsigned int`. -/
theorem C29_chunked_false :
    ∃ (inp : List Byte) (ilens : List Nat) (s s' : ChState), inp.length = 2 ^ 32 + 8 ∧
      chunked (swCompFn .little 0 junk0) 2 (2 ^ 32) 16 inp ilens s = .ok none s' ∧
      ¬ Successive (swCompFn .little 0 junk0) inp ilens (fun i => i * 2 ^ 32) (fun i => i * 16) 2 s s' := by
  obtain ⟨s', h⟩ := c29_aux (2 ^ 32) (Nat.mod_self _) (by norm_num)
  exact ⟨_, _, _, s', by rw [List.length_append, List.length_replicate]; rfl, h⟩

/-- With `2^32` chunks or more the `unsigned int` counter never reaches `numchunks`: no
number of iterations suffices (here for chunks that are all skipped). -/
theorem C29_never_returns (f : ChunkFn) (numchunks istride ostride : Nat) (inp : List Byte)
    (ilens : List Nat) (s : ChState) (hn : 2 ^ 32 ≤ numchunks) (hl : 2 ^ 32 ≤ ilens.length)
    (hs : ∀ l ∈ ilens, l = 2 ^ 64 - 1) (fuel : Nat) :
    chunkedF fuel f numchunks istride ostride inp ilens s = .timeout := by
  have key : ∀ fuel i so d ret, i < 2 ^ 32 →
      chunkedLoop f numchunks istride ostride inp ilens fuel i so d ret s = .timeout := by
    intro fuel
    induction fuel with
    | zero => intros; rfl
    | succ fuel ih =>
      intro i so d ret hi
      unfold chunkedLoop
      have hget : ilens[i]? = some (ilens[i]'(by omega)) := List.getElem?_eq_getElem (by omega)
      have hb : chunkedBody f inp ilens i so d ret s = .ok ret s := by
        unfold chunkedBody
        rw [M.access_bind_some (by exact hget), if_pos (show ilens[i]'(by omega) = SIZE_MAX from hs _ (List.getElem_mem _))]
        rfl
      rw [if_pos (by omega), M.bind_ok hb]
      exact ih _ _ _ _ (Nat.mod_lt _ (by norm_num))
  unfold chunkedF
  rw [M.bind_def, key fuel 0 0 0 none (by norm_num)]

/-! ## C30 -/

/-- C30, the part that holds: a multi-chunk call that returns returns 0, in particular if all
chunks succeeded.  Missing: the failures. -/
theorem C30_reports_failures_partial (f : ChunkFn) (hk : KeepsSize f) (numchunks istride ostride : Nat)
    (inp : List Byte) (ilens : List Nat) (s s' : ChState) (rc : Option Errno) (hn : numchunks < 2 ^ 32)
    (hr : numchunks ≤ s.rets.length)
    (h : chunked f numchunks istride ostride inp ilens s = .ok rc s') : rc = none :=
  ((C29_chunked_exact f hk _ _ _ _ _ _ _ _ hn hr).1 h).1

/-- C30 is false: `sw842_decompress_chunked` on one chunk with an invalid template stores
`-EINVAL` for the chunk and returns 0. -/
theorem C30_reports_failures_false :
    ∃ s' : ChState, chunked (swDecompFn .little 0) 1 8 8 [0xff, 0, 0, 0, 0, 0, 0, 0] [8]
        ⟨[none], [1, 2, 3, 4, 5, 6, 7, 8], [8]⟩ = .ok none s' ∧ s'.rets = [some .EINVAL] := by
  have h : (match chunked (swDecompFn .little 0) 1 8 8 [0xff, 0, 0, 0, 0, 0, 0, 0] [8]
        ⟨[none], [1, 2, 3, 4, 5, 6, 7, 8], [8]⟩ with
      | .ok none s => s.rets == [some .EINVAL]
      | _ => false) = true := by decide +kernel
  revert h
  generalize chunked (swDecompFn .little 0) 1 8 8 [0xff, 0, 0, 0, 0, 0, 0, 0] [8]
        ⟨[none], [1, 2, 3, 4, 5, 6, 7, 8], [8]⟩ = r
  intro h
  match r, h with
  | .ok none s, h => exact ⟨s, rfl, by simpa using h⟩

/-! ## C31 -/

theorem ChunkStep.out_get {f : ChunkFn} (hk : KeepsSize f) {inp : List Byte} {ilens : List Nat} {i so d : Nat}
    {s s' : ChState} (h : ChunkStep f inp ilens i so d s s') :
    s'.out.length = s.out.length ∧
    ∀ j, (∀ ol, s.olens[i]? = some ol → ilens[i]? ≠ some (2 ^ 64 - 1) → ¬ (d ≤ j ∧ j < d + ol)) →
      s'.out[j]? = s.out[j]? := by
  cases h with
  | skip h => exact ⟨rfl, fun _ _ => rfl⟩
  | @call il ol n rc buf hil hns hin hol hout hf =>
    have hl := hk _ _ _ _ _ _ _ hf
    have hl' : buf.length = ol := by rw [hl, List.length_take, List.length_drop]; omega
    refine ⟨?_, fun j hj => ?_⟩
    · simp only [List.length_append, List.length_take, List.length_drop]; omega
    · have := hj ol hol (by rw [hil]; intro h; exact hns (by simpa using h))
      simp only
      by_cases h1 : j < d
      · rw [List.append_assoc, List.getElem?_append_left (by rw [List.length_take]; omega),
          List.getElem?_take_of_lt h1]
      · rw [List.getElem?_append_right (by rw [List.length_append, List.length_take]; omega),
          List.getElem?_drop, List.length_append, List.length_take]
        congr 1
        omega

theorem ChunkStep.other {f : ChunkFn} {inp : List Byte} {ilens : List Nat} {i so d : Nat}
    {s s' : ChState} (h : ChunkStep f inp ilens i so d s s') (k : Nat) (hki : k ≠ i) :
    s'.rets[k]? = s.rets[k]? ∧ s'.olens[k]? = s.olens[k]? := by
  cases h with
  | skip h => exact ⟨rfl, rfl⟩
  | call => simp only [List.getElem?_set_ne (Ne.symm hki), and_self]

theorem Successive.later {f : ChunkFn} {inp : List Byte} {ilens : List Nat} {so d : Nat → Nat} {k : Nat}
    {s s' : ChState} (h : Successive f inp ilens so d k s s') (i : Nat) (hi : k ≤ i) :
    s'.rets[i]? = s.rets[i]? ∧ s'.olens[i]? = s.olens[i]? := by
  induction h with
  | zero => exact ⟨rfl, rfl⟩
  | @succ k s s1 s2 _ hst ih =>
    have h1 := ih (by omega)
    have h2 := hst.other i (by omega)
    exact ⟨h2.1.trans h1.1, h2.2.trans h1.2⟩

/-- C31, first half: a multi-chunk call changes no output byte outside the regions of the
processed chunks (`olens` is the array as it was when the call started). -/
theorem C31_writes_only_regions (f : ChunkFn) (hk : KeepsSize f) (inp : List Byte) (ilens : List Nat)
    (so d : Nat → Nat) (k : Nat) (s s' : ChState) (h : Successive f inp ilens so d k s s') :
    s'.out.length = s.out.length ∧
    ∀ j, (∀ i < k, ∀ ol, s.olens[i]? = some ol → ilens[i]? ≠ some (2 ^ 64 - 1) →
        ¬ (d i ≤ j ∧ j < d i + ol)) → s'.out[j]? = s.out[j]? := by
  induction h with
  | zero => exact ⟨rfl, fun _ _ => rfl⟩
  | @succ k s s1 s2 h1 hst ih =>
    obtain ⟨hl, hj⟩ := hst.out_get hk
    refine ⟨hl.trans ih.1, fun j hjj => ?_⟩
    rw [hj j (fun ol hol => hjj k (by omega) ol (by rw [← (h1.later k (by omega)).2]; exact hol))]
    exact ih.2 j (fun i hi => hjj i (by omega))

/-- C31, second half: if the regions of the processed chunks do not overlap, every chunk
gets exactly the result of a single call on its own input bytes and the original contents
of its own region, whatever the other chunks contain; a skipped chunk keeps its result
code and length. -/
theorem C31_isolation (f : ChunkFn) (hk : KeepsSize f) (inp : List Byte) (ilens : List Nat)
    (so d : Nat → Nat) (k : Nat) (s s' : ChState) (h : Successive f inp ilens so d k s s')
    (hr : k ≤ s.rets.length)
    (hdis : ∀ i < k, ∀ i' < k, i ≠ i' → ∀ ol ol', s.olens[i]? = some ol → s.olens[i']? = some ol' →
      ilens[i]? ≠ some (2 ^ 64 - 1) → ilens[i']? ≠ some (2 ^ 64 - 1) →
      d i + ol ≤ d i' ∨ d i' + ol' ≤ d i) :
    ∀ i < k,
      (ilens[i]? = some (2 ^ 64 - 1) → s'.rets[i]? = s.rets[i]? ∧ s'.olens[i]? = s.olens[i]?) ∧
      (∀ il ol, ilens[i]? = some il → il ≠ 2 ^ 64 - 1 → s.olens[i]? = some ol →
        ∃ rc n buf, f (so i) (d i) ((inp.drop (so i)).take il) ((s.out.drop (d i)).take ol) = .ret rc n buf ∧
          s'.rets[i]? = some rc ∧ s'.olens[i]? = some n ∧ (s'.out.drop (d i)).take ol = buf) := by
  induction h with
  | zero => intro i hi; omega
  | @succ k s s1 s2 h1 hst ih =>
    have ih := ih (by omega) (fun i hi i' hi' => hdis i (by omega) i' (by omega))
    obtain ⟨hl1, hout1⟩ := C31_writes_only_regions f hk inp ilens so d k s s1 h1
    obtain ⟨hl2, hout2⟩ := hst.out_get hk
    -- slices outside the region of the last chunk
    intro i hi
    by_cases hik : i = k
    · subst hik
      have hlat := h1.later i (le_refl _)
      refine ⟨fun hs => ?_, fun il ol hil hns hol => ?_⟩
      · cases hst with
        | skip _ => exact hlat
        | call hil hns => rw [hil] at hs; exact absurd (by simpa using hs) hns
      · have hsl : (s1.out.drop (d i)).take ol = (s.out.drop (d i)).take ol := by
          apply List.ext_getElem?
          intro j
          by_cases hj : j < ol
          · rw [List.getElem?_take_of_lt hj, List.getElem?_take_of_lt hj, List.getElem?_drop, List.getElem?_drop]
            apply hout1
            intro i' hi' ol' hol' hns' hcon
            have := hdis i' (by omega) i (by omega) (by omega) ol' ol hol' hol hns'
              (by rw [hil]; intro h; exact hns (by simpa using h))
            omega
          · rw [List.getElem?_take_eq_none (by omega), List.getElem?_take_eq_none (by omega)]
        cases hst with
        | skip hs => rw [hil] at hs; exact absurd (by simpa using hs) hns
        | @call il' ol' n rc buf hil' hns' hin hol' hout' hf =>
          rw [hil] at hil'
          cases hil'
          rw [hlat.2, hol] at hol'
          cases hol'
          have hl := hk _ _ _ _ _ _ _ hf
          have hl' : buf.length = ol := by rw [hl, List.length_take, List.length_drop]; omega
          rw [hsl] at hf
          refine ⟨rc, n, buf, hf, ?_, ?_, ?_⟩
          · simp only [List.getElem?_set, if_true]
            rw [if_pos (by have := h1.lens.1; omega)]
          · simp only [List.getElem?_set, if_true]
            have : i < s.olens.length := (List.getElem?_eq_some_iff.1 hol).1
            rw [if_pos (by have := h1.lens.2; omega)]
          · simp only
            rw [List.append_assoc, List.drop_append_of_le_length (by rw [List.length_take]; omega),
              List.drop_eq_nil_of_le (by rw [List.length_take]; omega), List.nil_append,
              List.take_append_of_le_length (by omega), List.take_of_length_le (by omega)]
    · have hi' : i < k := by omega
      obtain ⟨iha, ihb⟩ := ih i hi'
      have ho := hst.other i hik
      refine ⟨fun hs => ⟨ho.1.trans (iha hs).1, ho.2.trans (iha hs).2⟩, fun il ol hil hns hol => ?_⟩
      obtain ⟨rc, n, buf, hf, h2, h3, h4⟩ := ihb il ol hil hns hol
      refine ⟨rc, n, buf, hf, ho.1.trans h2, ho.2.trans h3, ?_⟩
      rw [← h4]
      apply List.ext_getElem?
      intro j
      by_cases hj : j < ol
      · rw [List.getElem?_take_of_lt hj, List.getElem?_take_of_lt hj, List.getElem?_drop, List.getElem?_drop]
        apply hout2
        intro ol' hol' hns' hcon
        rw [(h1.later k (le_refl _)).2] at hol'
        have := hdis i (by omega) k (by omega) hik ol ol' hol hol'
          (by rw [hil]; intro h; exact hns (by simpa using h)) hns'
        omega
      · rw [List.getElem?_take_eq_none (by omega), List.getElem?_take_eq_none (by omega)]

/-- The regions of the first `k` chunks lie in the buffers. -/
def RegionsOk (inp : List Byte) (ilens : List Nat) (so d : Nat → Nat) (k : Nat) (s : ChState) : Prop :=
  ∀ i < k, ∃ il, ilens[i]? = some il ∧ (il ≠ 2 ^ 64 - 1 →
    so i + il ≤ inp.length ∧ ∃ ol, s.olens[i]? = some ol ∧ d i + ol ≤ s.out.length)

/-- C31 for `optsw842_decompress_chunked`: no chunk contents, however hostile, keep the call
from completing all chunks, provided the buffers and strides are multiples of 8. -/
theorem C31_opt_decompress_total (e : Endian) (ain aout : Nat) (inp : List Byte) (ilens : List Nat)
    (so d : Nat → Nat) (k : Nat) (s : ChState) (hreg : RegionsOk inp ilens so d k s)
    (hal : ain % 8 = 0 ∧ aout % 8 = 0) (hso : ∀ i, so i % 8 = 0 ∧ d i % 8 = 0) :
    ∃ s', Successive (optDecompFn e ain aout) inp ilens so d k s s' := by
  have hk : KeepsSize (optDecompFn e ain aout) :=
    (C29_functions_keep_size e ain aout ojunk0 junk0).2.2.2
  induction k with
  | zero => exact ⟨s, .zero⟩
  | succ k ih =>
    obtain ⟨s1, h1⟩ := ih (fun i hi => hreg i (by omega))
    obtain ⟨il, hil, hreg'⟩ := hreg k (by omega)
    by_cases hsm : il = 2 ^ 64 - 1
    · exact ⟨s1, .succ h1 (.skip (by rw [hil, hsm]))⟩
    · obtain ⟨hin, ol, hol, hout⟩ := hreg' hsm
      have hlen := (C31_writes_only_regions _ hk inp ilens so d k s s1 h1).1
      have hol' := (h1.later k (le_refl _)).2.trans hol
      have hk2 := hso k
      obtain ⟨_, rc, n, b, hf, _⟩ := C06_opt_decompress_memory_safe e (ain + so k) (aout + d k)
        ((inp.drop (so k)).take il) ((s1.out.drop (d k)).take ol) (by omega)
      exact ⟨_, .succ h1 (.call hil hsm hin hol' (by omega) hf)⟩

/-- Two disjoint regions, the first chunk corrupt, the second one fine: the second is
decompressed as if alone. -/
example : (match chunked (optDecompFn .little 0 0) 2 24 16
      ([0xff, 0, 0, 0, 0, 0, 0, 0, 0, 0, 0, 0, 0, 0, 0, 0, 0, 0, 0, 0, 0, 0, 0, 0] ++
        [0xe7, 0x80, 0, 0, 0, 0, 0, 0]) [24, 8]
      ⟨[none, none], List.replicate 32 0xaa, [16, 16]⟩ with
      | .ok none s => s.rets == [some .EINVAL, none] && s.olens == [0, 8] &&
          (s.out.drop 16).take 8 == List.replicate 8 0
      | _ => false) = true := by decide +kernel

end Lib842.Props
