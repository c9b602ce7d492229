import Verif.Proofs.ClHost
import Verif.Props.Ocl
/-!
# Property theorems for the host side of the OpenCL decompressor (C80, C81)
-/

namespace Lib842.Props
open Spec

/-! ## C80: a corrupt chunk does not affect the others -/

/-- One work item of a launch with both arrays of sizes. -/
theorem item_done (e : Endian) (inp rest : List Byte) (c il ol : Nat) (h8 : il % 8 = 0) (hin : il ≤ inp.length)
    (hol : ol ≤ c) (hc : c ≤ rest.length)
    (hroom : 8 * (ol / 8) + 2 ≤ rest.length ∨ ∃ d, HwDecodes (inp.take il) d ∧ d.length ≤ ol) :
    ∃ rc m y, y.length = c ∧ oclItem e .always c inp rest (some il) (some ol) = .ret rc m (y ++ rest.drop c) ∧
      ChunkDone (inp.take il) (rest.take c) y ol m rc := by
  have hitem : oclItem e .always c inp rest (some il) (some ol) = oclCore e (some inp) 0 il rest ol := rfl
  rw [hitem]
  have hacc : ∀ d, HwDecodes (inp.take il) d → d.length ≤ ol →
      oclCore e (some inp) 0 il rest ol = .ret none d.length (d ++ rest.drop d.length) :=
    fun d hd hl => C43_ocl_accepts_format e inp rest d il ol h8 hin hd hl (by omega)
  have hdone : ∃ rc m b, oclCore e (some inp) 0 il rest ol = .ret rc m b ∧ b.length = rest.length ∧ m ≤ ol ∧
      b.drop ol = rest.drop ol ∧ (∀ e, rc = some e → m = 0 ∧ (e = .EINVAL ∨ e = .ENOSPC)) := by
    have h := oclCore_res e inp 0 il rest ol (by omega) (by omega)
    rcases hroom with hroom | ⟨d, hd, hl⟩
    · generalize oclCore e (some inp) 0 il rest ol = x at h
      cases h with
      | ok h1 h2 h3 h4 h5 =>
        refine ⟨_, _, _, rfl, h3, h2, ?_, by simp⟩
        exact drop_eq_of_le h5 h2
      | full h1 h2 h3 h4 h5 h6 => exact ⟨_, _, _, rfl, h5, Nat.zero_le _, h6, by rintro e ⟨⟩; exact ⟨rfl, .inr rfl⟩⟩
      | bad h1 h2 h3 => exact ⟨_, _, _, rfl, h2, Nat.zero_le _, h3, by rintro e ⟨⟩; exact ⟨rfl, .inl rfl⟩⟩
      | ub h1 => omega
    · refine ⟨_, _, _, hacc d hd hl, by simp; omega, hl, ?_, by simp⟩
      rw [List.drop_append, List.drop_of_length_le hl, List.nil_append, List.drop_drop]
      congr 1; omega
  obtain ⟨rc, m, b, hb, hbl, hm, hfr, hfail⟩ := hdone
  have hbc : b.drop c = rest.drop c := drop_eq_of_le hfr hol
  refine ⟨rc, m, b.take c, by simp; omega, by rw [hb, ← hbc, List.take_append_drop], ⟨hm, ?_, ?_, ?_, ?_, hfail⟩⟩
  · simp only [List.length_take]; omega
  · rw [List.drop_take, List.drop_take, hfr]
  · intro d hd hl
    have := hacc d hd hl
    rw [hb] at this
    simp only [Call.ret.injEq] at this
    obtain ⟨h1, h2, h3⟩ := this
    refine ⟨h1, h2, ?_⟩
    rw [h3, List.take_append, List.take_of_length_le (by omega), List.drop_take]
  · rintro rfl
    obtain ⟨h1, h2, h3, h4, ops, crc, r, h5, h6, h7⟩ := C43_ocl_success_is_decoding e inp rest il ol m b h8 hin
      (by omega) hb
    refine ⟨by rw [List.drop_take, List.drop_take, h4], ops, crc, r, ?_, h6, h7⟩
    rw [List.take_take, Nat.min_eq_left (by omega)]
    exact h5

/-- A stream for 8 bytes. -/
def exStream1 : List Byte :=
  [0x00, 0x08, 0x10, 0x18, 0x20, 0x28, 0x30, 0x38, 0x47, 0x9f, 0x43, 0xcd, 0xa0, 0x40, 0x00, 0x00]

theorem exStream1_hw : HwDecodes exStream1 [1, 2, 3, 4, 5, 6, 7, 8] := by
  have h : optsw842Decompress .little 0 0 exStream1 (List.replicate 8 0) = .ret none 8 [1, 2, 3, 4, 5, 6, 7, 8] := by
    decide +kernel
  exact (C14_opt_success_is_decoding .little 0 0 _ _ _ _ (by decide) h).1

theorem exOut8_hw : HwDecodes exOut8 exIn8 := by
  have h : optsw842Decompress .little 0 0 exOut8 (List.replicate 33 0xaa) = .ret none 32 (exIn8 ++ [0xaa]) :=
    ex_opt_decompress
  exact (C14_opt_success_is_decoding .little 0 0 exOut8 _ 32 _ (by decide) h).1

/-- C80 is false without the optional array of output sizes: a chunk that decodes to more than the chunk size
overwrites the next chunk, whose valid stream is then lost (or not, depending on the order of the work items), and
success is reported for both. -/
theorem C80_no_sizes_false :
    ∃ s1 s2 d1 d2 : List Byte, HwDecodes s1 d1 ∧ HwDecodes s2 d2 ∧ s1.length = 24 ∧ s2.length = 16 ∧ d2.length = 8 ∧
      ∃ o1 o2 : List Nat, o1.Perm (List.range 256) ∧ o2.Perm (List.range 256) ∧
      ∃ r1 r2 : ClHostRes,
        clHostDecompressArrays .little .always 8 24 false (s1 ++ s2) (List.replicate 32 0) (some [24, 16]) none none true
          (List.replicate 32 0) [] o1 = .ok (some r1) ∧
        clHostDecompressArrays .little .always 8 24 false (s1 ++ s2) (List.replicate 32 0) (some [24, 16]) none none true
          (List.replicate 32 0) [] o2 = .ok (some r2) ∧
        r1.rets = some [some none, some none] ∧ r2.rets = some [some none, some none] ∧
        chunkSlot r1.out 8 0 1 = d2 ∧ chunkSlot r2.out 8 0 1 ≠ d2 := by
  refine ⟨exOut8, exStream1, exIn8, [1, 2, 3, 4, 5, 6, 7, 8], exOut8_hw, exStream1_hw, rfl, rfl, rfl, List.range 256,
    (List.range 256).reverse, List.Perm.refl _, List.reverse_perm _,
    ⟨exIn8.take 8 ++ ([1, 2, 3, 4, 5, 6, 7, 8] ++ exIn8.drop 16), none, some [some none, some none]⟩,
    ⟨exIn8, none, some [some none, some none]⟩, ?_, ?_, rfl, rfl, ?_, ?_⟩ <;> decide +kernel

/-- C80, partial, for a launch with both arrays of sizes: whatever the input, each chunk is treated as if it were
alone.  Missing: launches without the arrays, see above; a chunk that is not a valid stream needs two readable bytes
after its capacity (see C57). -/
theorem C80_launch_partial (e : Endian) (c stride inOff outOff n : Nat) (inp buf : List Byte) (ilens olens : List Nat)
    (hc8 : c % 8 = 0) (hil : ilens.length = n) (hol : olens.length = n)
    (hin : ∀ i il, ilens[i]? = some il → il % 8 = 0 ∧ 8 * (inOff / 8 + stride / 8 * i) + il ≤ inp.length)
    (hcap : ∀ ol ∈ olens, ol ≤ c) (hbuf : 8 * (outOff / 8) + c * n ≤ buf.length)
    (hroom : ∀ i il ol, ilens[i]? = some il → olens[i]? = some ol →
      8 * (outOff / 8) + c * i + 8 * (ol / 8) + 2 ≤ buf.length ∨
      ∃ d, HwDecodes ((inp.drop (8 * (inOff / 8 + stride / 8 * i))).take il) d ∧ d.length ≤ ol)
    (shuffle : Option (List Nat)) (hs : ∀ m, shuffle = some m → m.Perm (List.range n))
    (order : List Nat) (hord : order.Perm (List.range (oclGlobalSize n))) :
    ∃ out, oclLaunch e .always c stride inOff outOff inp (some ilens) (some olens) n shuffle order buf = some out ∧
      out.buf.length = buf.length ∧ out.buf.take (8 * (outOff / 8)) = buf.take (8 * (outOff / 8)) ∧
      out.buf.drop (8 * (outOff / 8) + c * n) = buf.drop (8 * (outOff / 8) + c * n) ∧
      ∀ i il ol, ilens[i]? = some il → olens[i]? = some ol →
        ∃ m rc, out.lens.filter (fun p => p.1 == i) = [(i, m)] ∧ out.rets.filter (fun p => p.1 == i) = [(i, rc)] ∧
          ChunkDone ((inp.drop (8 * (inOff / 8 + stride / 8 * i))).take il) (chunkSlot buf c (8 * (outOff / 8)) i)
            (chunkSlot out.buf c (8 * (outOff / 8)) i) ol m rc := by
  obtain ⟨out, h1, h2, h3, h4, h5⟩ := oclLaunch_each e .always (by decide) c stride inOff outOff n inp (some ilens)
    (some olens) hc8 buf hbuf
    (fun i old new m rc => ∀ il ol, ilens[i]? = some il → olens[i]? = some ol →
      ChunkDone ((inp.drop (8 * (inOff / 8 + stride / 8 * i))).take il) old new ol m rc)
    (by
      intro i hi
      obtain ⟨il, hil'⟩ : ∃ il, ilens[i]? = some il := ⟨_, List.getElem?_eq_getElem (by omega)⟩
      obtain ⟨ol, hol'⟩ : ∃ ol, olens[i]? = some ol := ⟨_, List.getElem?_eq_getElem (by omega)⟩
      obtain ⟨h8, hle⟩ := hin i il hil'
      have hci : c * i + c ≤ c * n := by rw [← Nat.mul_succ]; exact Nat.mul_le_mul_left _ hi
      refine ⟨by omega, some il, some ol, by simp [optAt, hil'], by simp [optAt, hol'], ?_⟩
      intro rest hrest
      obtain ⟨rc, m, y, k1, k2, k3⟩ := item_done e (inp.drop (8 * (inOff / 8 + stride / 8 * i))) rest c il ol h8
        (by rw [List.length_drop]; omega) (hcap ol (List.mem_of_getElem? hol')) (by omega)
        (by
          rcases hroom i il ol hil' hol' with h | h
          · left; omega
          · exact .inr h)
      refine ⟨rc, m, y, k1, k2, ?_⟩
      intro il2 ol2 ha hb
      rw [hil'] at ha; rw [hol'] at hb
      cases ha; cases hb
      exact k3)
    shuffle hs order hord
  refine ⟨out, h1, h2, h3, h4, ?_⟩
  intro i il ol hi1 hi2
  have hi : i < n := by rw [← hil]; exact (List.getElem?_eq_some_iff.1 hi1).1
  obtain ⟨m, rc, k1, k2, k3⟩ := h5 i hi
  exact ⟨m, rc, k1, k2, k3 il ol hi1 hi2⟩

/-- C80, partial, for `CLHostDecompressor::decompress` with all arrays: every chunk gets its own length and return
value and its own data, whatever the other chunks hold; nothing else of the output depends on the input. -/
theorem C80_host_partial (e : Endian) (c stride : Nat) (inp out dev devTail : List Byte) (ilens olens : List Nat)
    (hne : inp ≠ []) (hs0 : 0 < stride) (hs8 : stride % 8 = 0) (hc8 : c % 8 = 0)
    (hil : ilens.length = hostNumChunks inp.length stride) (hol : olens.length = ilens.length)
    (hin : ∀ i il, ilens[i]? = some il → il % 8 = 0 ∧ stride * i + il ≤ inp.length)
    (hcap : ∀ ol ∈ olens, ol ≤ c) (hout : c * ilens.length ≤ out.length) (hdev : dev.length = out.length)
    (hroom : ∀ i il ol, ilens[i]? = some il → olens[i]? = some ol → c * i + 8 * (ol / 8) + 2 ≤ out.length ∨
      ∃ d, HwDecodes ((inp.drop (stride * i)).take il) d ∧ d.length ≤ ol)
    (shuffle : Option (List Nat)) (hs : ∀ m, shuffle = some m → m.Perm (List.range ilens.length))
    (order : List Nat) (hord : order.Perm (List.range (oclGlobalSize ilens.length))) :
    ∃ r ls rs, clHostDecompressArrays e .always c stride false inp out (some ilens) (some olens) shuffle true dev devTail
        order = .ok (some r) ∧ r.olens = some ls ∧ r.rets = some rs ∧ ls.length = ilens.length ∧
      rs.length = ilens.length ∧ r.out.length = out.length ∧
      r.out.drop (c * ilens.length) = dev.drop (c * ilens.length) ∧
      ∀ i il ol, ilens[i]? = some il → olens[i]? = some ol → ∃ m rc, ls[i]? = some m ∧ rs[i]? = some (some rc) ∧
        ChunkDone ((inp.drop (stride * i)).take il) (chunkSlot dev c 0 i) (chunkSlot r.out c 0 i) ol m rc := by
  have hoff : ∀ i, 8 * (0 / 8 + stride / 8 * i) = stride * i := by
    intro i
    rw [Nat.zero_div, Nat.zero_add, ← Nat.mul_assoc]
    congr 1; omega
  obtain ⟨o, h1, h2, h3, h4, h5⟩ := C80_launch_partial e c stride 0 0 ilens.length inp dev ilens olens hc8 rfl hol
    (fun i il h => by rw [hoff]; exact hin i il h) hcap (by omega)
    (fun i il ol ha hb => by
      rw [hoff, hdev]
      rcases hroom i il ol ha hb with h | h
      · left; omega
      · exact .inr h) shuffle hs order hord
  have hpos : 0 < inp.length := List.length_pos_iff.2 hne
  have hn : 0 < hostNumChunks inp.length stride := by
    unfold hostNumChunks
    exact Nat.div_pos (by omega) hs0
  have hsh : hasElements ilens.length shuffle = true := by
    cases shuffle with
    | none => rfl
    | some m => have := (hs m rfl).length_eq; simp only [List.length_range] at this; simp [hasElements, this]
  have hcall : clHostDecompressArrays e .always c stride false inp out (some ilens) (some olens) shuffle true dev devTail
        order = .ok (some (readBack ilens.length (some olens) true out.length o)) := by
    unfold clHostDecompressArrays
    simp only
    rw [← hil] at hn ⊢
    rw [if_neg (by
        rintro (h | h | h | h)
        · omega
        · simp [hasElements] at h
        · simp [hasElements, hol] at h
        · rw [hsh] at h; cases h),
      if_neg (by rintro ⟨h, -⟩; omega), if_neg (by simp), if_neg (by simp), if_neg (by simp), if_neg (by omega), h1]
    rfl
  have htake : o.buf.take out.length = o.buf := by rw [List.take_of_length_le (by omega)]
  refine ⟨_, _, _, hcall, rfl, rfl, by simp [hol], by simp, ?_, ?_, ?_⟩
  · simp only [readBack]; rw [htake]; omega
  · simp only [readBack]; rw [htake]; simpa using h4
  · intro i il ol ha hb
    have hi : i < ilens.length := (List.getElem?_eq_some_iff.1 ha).1
    obtain ⟨m, rc, k1, k2, k3⟩ := h5 i il ol ha hb
    rw [hoff] at k3
    refine ⟨m, rc, ?_, ?_, ?_⟩
    · rw [List.getElem?_append_left (by simpa using hi), List.getElem?_map, List.getElem?_range hi]
      simp [lastStored_of_filter k1]
    · rw [List.getElem?_map, List.getElem?_range hi]
      simp [lastStored_of_filter k2]
    · simp only [readBack]; rw [htake]; exact k3

/-- The first chunk is garbage, the second one a stream: the second one is restored. -/
example (order : List Nat) (hord : order.Perm (List.range 256)) :
    ∃ r : ClHostRes, clHostDecompressArrays .big .always 8 24 false (List.replicate 24 0xff ++ exStream1)
        (List.replicate 16 0) (some [24, 16]) (some [8, 8]) (some [1, 0]) true (List.replicate 16 7) [] order = .ok (some r) ∧
      chunkSlot r.out 8 0 1 = [1, 2, 3, 4, 5, 6, 7, 8] ∧ ∃ l rc, r.olens = some [l, 8] ∧ r.rets = some [rc, some none] := by
  obtain ⟨r, ls, rs, h1, h2, h3, h4, h5, -, -, h6⟩ := C80_host_partial .big 8 24 (List.replicate 24 0xff ++ exStream1)
    (List.replicate 16 0) (List.replicate 16 7) [] [24, 16] [8, 8] (by decide) (by decide) (by decide) (by decide)
    (by decide) rfl
    (by
      rintro (_ | _ | i) il h
      · cases h; decide
      · cases h; decide
      · cases h)
    (by decide) (by decide) rfl
    (by
      rintro (_ | _ | i) il ol h h'
      · cases h; cases h'; left; decide
      · cases h; cases h'; exact .inr ⟨_, exStream1_hw, by decide⟩
      · cases h) (some [1, 0]) (by rintro m ⟨⟩; decide) order hord
  obtain ⟨m, rc, k1, k2, k3⟩ := h6 1 16 8 rfl rfl
  obtain ⟨rfl, rfl, k4⟩ := k3.valid _ exStream1_hw (by decide)
  refine ⟨r, h1, ?_, ?_⟩
  · rw [k4]; decide
  · match ls, rs, h4, h5 with
    | [l, m'], [rc, rc'], _, _ =>
      simp only [List.getElem?_cons_succ, List.getElem?_cons_zero, Option.some.injEq] at k1 k2
      subst k1 k2
      exact ⟨l, rc, h2, h3⟩

/-- Without the arrays, the function is the one used for the sample programs. -/
theorem C80_host_no_arrays (e : Endian) (fmt : ClFormat) (c stride : Nat) (hs0 : 0 < stride) (same : Bool)
    (inp out dev devTail : List Byte) (order : List Nat) :
    clHostDecompressArrays e fmt c stride same inp out none none none false dev devTail order =
      (clHostDecompress e fmt c stride same inp out none dev devTail order).bind fun r =>
        .ok (r.map fun b => ⟨b, none, none⟩) := by
  unfold clHostDecompressArrays clHostDecompress
  simp only
  rw [if_neg (by
      rintro (h | h | h | h)
      · omega
      all_goals cases h), if_neg (by rintro ⟨-, h | h | h | h⟩ <;> simp at h)]
  have hrun : ∀ o : Option ClOut, (BRes.access o).bind (fun r => .ok (some (readBack (hostNumChunks inp.length stride)
      none false out.length r))) = ((BRes.access o).bind fun r => .ok (some (r.buf.take out.length))).bind
        fun r => .ok (r.map fun b => ⟨b, none, none⟩) := by
    intro o
    cases o <;> rfl
  by_cases h1 : fmt = .inplace
  · rw [if_pos h1, if_pos h1]
    by_cases h2 : same = false ∨ inp.length ≠ out.length
    · rw [if_pos h2, if_pos h2]; rfl
    · rw [if_neg h2, if_neg h2]; exact hrun _
  · rw [if_neg h1, if_neg h1]
    by_cases h2 : same = true ∧ out.length ≠ 0
    · rw [if_pos h2, if_pos h2]; rfl
    · rw [if_neg h2, if_neg h2]
      by_cases h3 : fmt = .maybe ∧ inp.length ≠ out.length
      · rw [if_pos h3, if_pos h3]; rfl
      · rw [if_neg h3, if_neg h3]
        by_cases h4 : inp.length = 0
        · rw [if_pos h4, if_pos h4]; rfl
        · rw [if_neg h4, if_neg h4]; exact hrun _

/-! ## C56 again: `cl842_decompress` in terms of the host function -/

/-- What `cl842_decompress` makes of the result of `CLHostDecompressor::decompress` (470-471). -/
def wrapperResult : BRes (Option ClHostRes) → Call
  | .ok (some ⟨out, some [n], some [some rc]⟩) => .ret rc n out
  | _ => .ub

/-- C56: `cl842_decompress` is `CLHostDecompressor::decompress` with arrays of one element (for more than 99999
bytes: with arrays that are too short). -/
theorem C56_wrapper_is_host (e : Endian) (order : List Nat) (horder : order.Perm (List.range 256)) (dev : Nat → Byte)
    (inp buf devTail : List Byte) (h0 : inp ≠ []) :
    cl842Decompress e order dev inp buf = wrapperResult (clHostDecompressArrays e .always 65536 99999 false inp buf
      (some [inp.length]) (some [buf.length]) none true ((List.range (max 1 buf.length)).map dev) devTail order) := by
  have hpos : 0 < inp.length := List.length_pos_iff.2 h0
  by_cases hmax : inp.length ≤ 99999
  · have hn : hostNumChunks inp.length clWrapperStride = 1 := (C56_one_chunk_iff _).2 ⟨hpos, hmax⟩
    have hn' : hostNumChunks inp.length 99999 = 1 := hn
    obtain ⟨db, hdb⟩ : ∃ db, db = (List.range (max 1 buf.length)).map dev := ⟨_, rfl⟩
    have hskip : ∀ g (s : ClOut), g ≠ 0 →
        oclWorkItem e .always 65536 clWrapperStride 0 0 inp (some [inp.length]) (some [buf.length]) 1 none g s = some s := by
      intro g s hg
      unfold oclWorkItem
      rw [if_pos (by omega)]
    have hfold : ∀ (l : List Nat), 0 ∉ l → ∀ s : ClOut, l.foldlM (fun s gid => oclWorkItem e .always 65536 clWrapperStride 0 0
        inp (some [inp.length]) (some [buf.length]) 1 none gid s) s = some s := by
      intro l
      induction l with
      | nil => intro _ s; rfl
      | cons g l ih =>
        intro hl s
        rw [List.foldlM_cons, hskip g s (by rintro rfl; exact hl (List.mem_cons_self ..))]
        exact ih (fun h => hl (List.mem_cons_of_mem _ h)) s
    have hmem : 0 ∈ order := horder.mem_iff.2 (by decide)
    have hnd : order.Nodup := horder.nodup_iff.2 List.nodup_range
    obtain ⟨l1, l2, rfl⟩ := List.append_of_mem hmem
    have hl1 : 0 ∉ l1 := fun h => (List.nodup_append.1 hnd).2.2 0 h 0 (List.mem_cons_self ..) rfl
    have hl2 : 0 ∉ l2 := (List.nodup_cons.1 (List.nodup_append.1 hnd).2.1).1
    have hlaunch : oclLaunch e .always 65536 clWrapperStride 0 0 inp (some [inp.length]) (some [buf.length]) 1 none
        (l1 ++ 0 :: l2) db = oclChunk e .always 65536 clWrapperStride 0 0 inp (some [inp.length]) (some [buf.length]) 0
          ⟨db, [], []⟩ := by
      unfold oclLaunch
      simp only [List.foldlM_append, List.foldlM_cons, hfold l1 hl1, Option.bind_eq_bind, Option.bind_some]
      have : oclWorkItem e .always 65536 clWrapperStride 0 0 inp (some [inp.length]) (some [buf.length]) 1 none 0
          ⟨db, [], []⟩ = oclChunk e .always 65536 clWrapperStride 0 0 inp (some [inp.length]) (some [buf.length]) 0
          ⟨db, [], []⟩ := by
        unfold oclWorkItem
        rw [if_neg (by decide)]
      rw [this]
      cases oclChunk e .always 65536 clWrapperStride 0 0 inp (some [inp.length]) (some [buf.length]) 0 ⟨db, [], []⟩ with
      | none => rfl
      | some s => exact hfold l2 hl2 s
    unfold cl842Decompress clHostDecompressArrays
    simp only [hostElements, hn, clWrapperElements, hn']
    rw [if_neg (by simp), if_neg (by simp [hasElements]), if_neg (by simp), if_neg (by simp), if_neg (by simp),
      if_neg (by simp), if_neg (by omega)]
    rw [show (99999 : Nat) = clWrapperStride from rfl, ← hdb, hlaunch]
    have hshape : ∀ out, oclChunk e .always 65536 clWrapperStride 0 0 inp (some [inp.length]) (some [buf.length]) 0
        ⟨db, [], []⟩ = some out → ∃ b n rc, out = ⟨b, [(0, n)], [(0, rc)]⟩ := by
      intro out h
      unfold oclChunk at h
      simp only at h
      split at h
      · cases h
      · simp only [optAt, List.getElem?_cons_zero, Option.map_some] at h
        split at h
        · simp only [Option.some.injEq] at h
          exact ⟨_, _, _, h.symm⟩
        · cases h
    cases hc : oclChunk e .always 65536 clWrapperStride 0 0 inp (some [inp.length]) (some [buf.length]) 0 ⟨db, [], []⟩ with
    | none => rfl
    | some out =>
      obtain ⟨b, n, rc, rfl⟩ := hshape out hc
      rfl
  · have hn : 1 < hostNumChunks inp.length 99999 := by unfold hostNumChunks; omega
    have hn' : hostElements inp.length clWrapperStride ≠ clWrapperElements := by
      show hostNumChunks inp.length 99999 ≠ 1
      omega
    unfold cl842Decompress clHostDecompressArrays
    simp only
    rw [if_pos hn', if_pos]
    · rfl
    · right; left
      simp [hasElements]; omega

/-- C56: the bytes of the output buffer after the data do not keep their contents. -/
theorem C56_rest_overwritten : ∃ (inp buf d : List Byte), HwDecodes inp d ∧ d.length < buf.length ∧
    ∀ x : Byte, cl842Decompress .little (List.range 256) (fun _ => x) inp buf =
      .ret none d.length (d ++ List.replicate (buf.length - d.length) x) := by
  refine ⟨exStream1, List.replicate 12 0, _, exStream1_hw, by decide, ?_⟩
  intro x
  rw [C56_wrapper_partial .little (List.range 256) (List.Perm.refl _) (fun _ => x) exStream1 (List.replicate 12 0)
    [1, 2, 3, 4, 5, 6, 7, 8] (by decide) (by decide) (by decide) exStream1_hw (by decide)]
  rfl

/-! ## C81: choice of the devices -/

/-- C81 is false: (1) if a platform reports an error other than "no device", the devices of the platforms after it are
not used; (2) an accelerator is not used. -/
theorem C81_any_device_false :
    (∃ p q : ClPlatform, q.has .gpu ∧ findDevices (.ok [q, p]) = .ok [⟨1, .ok true⟩] ∧
      findDevices (.ok [p, q]) = .error (-6)) ∧
    (∃ p : ClPlatform, p.has .accelerator ∧ findDevices (.ok [p]) = .error (-1)) := by
  refine ⟨⟨⟨fun _ => .error (-6)⟩, ⟨fun t => if t = .gpu then .ok [⟨1, .ok true⟩] else .error (-1)⟩, ?_, rfl, rfl⟩,
    ⟨fun t => if t = .accelerator then .ok [⟨1, .ok true⟩] else .error (-1)⟩, ?_, rfl⟩
  · exact ⟨_, ⟨1, .ok true⟩, rfl, by simp, rfl⟩
  · exact ⟨_, ⟨1, .ok true⟩, rfl, by simp, rfl⟩

/-- C81: what is chosen: the available devices of one platform, GPUs if any platform has one, otherwise CPUs, and of
the first such platform; there is at least one. -/
theorem C81_chosen (platforms : Except Int (List ClPlatform)) (ds : List ClDevice) (h : findDevices platforms = .ok ds) :
    ds ≠ [] ∧ ∃ t pre p post l, (t = .gpu ∨ t = .cpu) ∧ platforms = .ok (pre ++ p :: post) ∧ p.devices t = .ok l ∧
      ds.Sublist l ∧ (∀ d ∈ l, d ∈ ds ↔ d.available = .ok true) ∧ (∀ q ∈ pre, ¬ q.has t) ∧
      (t = .cpu → ∀ q ∈ pre ++ p :: post, ¬ q.has .gpu) := by
  have hfil : ∀ l : List ClDevice, (l.filter ClDevice.isAvail).Sublist l ∧
      ∀ d ∈ l, d ∈ l.filter ClDevice.isAvail ↔ d.available = .ok true := by
    intro l
    refine ⟨List.filter_sublist, ?_⟩
    intro d hd
    rw [List.mem_filter]
    simp only [hd, true_and]
    unfold ClDevice.isAvail
    cases d.available with
    | error c => simp
    | ok b => simp
  unfold findDevices at h
  cases hp : platforms with
  | error c => rw [hp] at h; cases h
  | ok ps =>
    rw [hp] at h
    simp only at h
    by_cases he : ps.isEmpty = true
    · rw [if_pos he] at h; cases h
    · rw [if_neg he] at h
      unfold scanTypes at h
      cases h1 : scanPlatforms .gpu ps [] with
      | error c => rw [h1] at h; cases h
      | ok r =>
        obtain ⟨b, r⟩ := r
        rw [h1] at h
        cases b with
        | true =>
          simp only [Except.ok.injEq] at h
          subst h
          obtain ⟨pre, p, post, l, k1, k2, k3, k4, k5⟩ := scanPlatforms_found h1
          refine ⟨k4, .gpu, pre, p, post, l, .inl rfl, by rw [k1], k2, ?_, ?_, k5, by simp⟩
          · rw [k3]; exact (hfil l).1
          · rw [k3]; exact (hfil l).2
        | false =>
          obtain ⟨rfl, hno⟩ := scanPlatforms_none h1
          simp only at h
          unfold scanTypes at h
          cases h2 : scanPlatforms .cpu ps [] with
          | error c => rw [h2] at h; cases h
          | ok r =>
            obtain ⟨b, r⟩ := r
            rw [h2] at h
            cases b with
            | true =>
              simp only [Except.ok.injEq] at h
              subst h
              obtain ⟨pre, p, post, l, k1, k2, k3, k4, k5⟩ := scanPlatforms_found h2
              refine ⟨k4, .cpu, pre, p, post, l, .inr rfl, by rw [k1], k2, ?_, ?_, k5, ?_⟩
              · rw [k3]; exact (hfil l).1
              · rw [k3]; exact (hfil l).2
              · intro _ q hq; exact hno q (by rw [k1]; exact hq)
            | false => simp [scanTypes] at h

/-- C81, partial: if no query fails (but for "no device"), a device is found whenever some platform has an available
GPU or CPU, and otherwise the error is `CL_DEVICE_NOT_FOUND`.  Missing: failing queries and accelerators, see above. -/
theorem C81_found_partial (ps : List ClPlatform) (h : ∀ p ∈ ps, p.answers .gpu ∧ p.answers .cpu) :
    ((∃ p ∈ ps, p.has .gpu ∨ p.has .cpu) ↔ ∃ ds, findDevices (.ok ps) = .ok ds) ∧
    ((¬ ∃ p ∈ ps, p.has .gpu ∨ p.has .cpu) ↔ findDevices (.ok ps) = .error (-1)) := by
  have hiff : (∃ ds, findDevices (.ok ps) = .ok ds) ∨ findDevices (.ok ps) = .error (-1) ∧
      ¬ ∃ p ∈ ps, p.has .gpu ∨ p.has .cpu := by
    unfold findDevices
    simp only
    by_cases he : ps.isEmpty = true
    · rw [if_pos he]
      rw [List.isEmpty_iff.1 he]
      right; simp [clDeviceNotFound]
    · rw [if_neg he]
      obtain ⟨b1, r1, h1⟩ := scanPlatforms_total (fun p hp => (h p hp).1)
      obtain ⟨b2, r2, h2⟩ := scanPlatforms_total (fun p hp => (h p hp).2)
      unfold scanTypes
      rw [h1]
      cases b1 with
      | true => exact .inl ⟨_, rfl⟩
      | false =>
        obtain ⟨rfl, hno1⟩ := scanPlatforms_none h1
        simp only
        unfold scanTypes
        rw [h2]
        cases b2 with
        | true => exact .inl ⟨_, rfl⟩
        | false =>
          obtain ⟨rfl, hno2⟩ := scanPlatforms_none h2
          right
          refine ⟨rfl, ?_⟩
          rintro ⟨p, hp, hh | hh⟩
          · exact hno1 p hp hh
          · exact hno2 p hp hh
  have hfound : ∀ ds, findDevices (.ok ps) = .ok ds → ∃ p ∈ ps, p.has .gpu ∨ p.has .cpu := by
    intro ds hds
    obtain ⟨k1, t, pre, p, post, l, k2, k3, k4, k5, k6, -, -⟩ := C81_chosen _ ds hds
    cases k3
    obtain ⟨d, hd⟩ := List.exists_mem_of_ne_nil ds k1
    have hdl := k5.subset hd
    have hhas : p.has t := ⟨l, d, k4, hdl, (k6 d hdl).1 hd⟩
    refine ⟨p, by simp, ?_⟩
    rcases k2 with rfl | rfl
    · exact .inl hhas
    · exact .inr hhas
  rcases hiff with ⟨ds, hds⟩ | ⟨herr, hno⟩
  · have := hfound ds hds
    refine ⟨⟨fun _ => ⟨ds, hds⟩, fun _ => this⟩, ⟨fun h => absurd this h, fun h => ?_⟩⟩
    rw [hds] at h; cases h
  · refine ⟨⟨fun h => absurd h hno, ?_⟩, ⟨fun _ => herr, fun _ => hno⟩⟩
    rintro ⟨ds, hds⟩
    rw [hds] at herr; cases herr

/-- C81: the constructor never takes the first element of an empty vector, and the device of its queue is available. -/
theorem C81_queue_device (platforms : Except Int (List ClPlatform)) (o : Option ClDevice)
    (h : constructorDevice platforms = .ok o) : ∃ d, o = some d ∧ d.available = .ok true := by
  unfold constructorDevice at h
  cases hf : findDevices platforms with
  | error c => rw [hf] at h; cases h
  | ok ds =>
    rw [hf] at h
    simp only [Except.ok.injEq] at h
    obtain ⟨k1, t, pre, p, post, l, -, -, -, k5, k6, -, -⟩ := C81_chosen _ ds hf
    cases ds with
    | nil => exact absurd rfl k1
    | cons d ds =>
      refine ⟨d, by simpa using h.symm, ?_⟩
      exact (k6 d (k5.subset (List.mem_cons_self ..))).1 (List.mem_cons_self ..)

/-- Two platforms: one has only a CPU, the other an unavailable GPU and two available ones. -/
example : findDevices (.ok [⟨fun t => if t = .cpu then .ok [⟨0, .ok true⟩] else .error (-1)⟩,
    ⟨fun t => if t = .gpu then .ok [⟨1, .ok false⟩, ⟨2, .ok true⟩, ⟨3, .ok true⟩] else .error (-1)⟩]) =
    .ok [⟨2, .ok true⟩, ⟨3, .ok true⟩] := rfl

end Lib842.Props
