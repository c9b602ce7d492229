import Verif.Model.OclKernel
import Verif.SpecCl
import Verif.Proofs.Ocl
import Verif.Props.Opt
/-!
# Lemmas about the OpenCL kernel and the packing of chunks
-/

namespace Lib842
open Spec

theorem load64_slice {e : Endian} {m m' : List Byte} {i i' : Nat} (h : i + 8 ≤ m.length) (h' : i' + 8 ≤ m'.length)
    {a b : BitVec 64} (ha : load64 e m i = some a) (hb : load64 e m' i' = some b) :
    a = b ↔ (m.drop i).take 8 = (m'.drop i').take 8 := by
  obtain ⟨a', h1, h2⟩ := load64_ok e h
  obtain ⟨b', h3, h4⟩ := load64_ok e h'
  rw [ha] at h1
  rw [hb] at h3
  cases h1; cases h3
  rw [← slice_bits m i 8] at h2
  rw [← slice_bits m' i' 8] at h4
  constructor
  · rintro rfl
    exact bytesBits_inj (h2.symm.trans h4)
  · intro hs
    rw [hs, ← h4] at h2
    exact swapBe64_inj (BitVec.eq_of_toNat_eq (bitsOf_inj h2 (BitVec.isLt _) (BitVec.isLt _)))

theorem take_split {m m' : List Byte} (k j : Nat) (h : m.take k = m'.take k)
    (h' : (m.drop k).take j = (m'.drop k).take j) : m.take (k + j) = m'.take (k + j) := by
  rw [List.take_add, List.take_add, h, h']

theorem chunkMarker_eq : chunkMarker = marker := rfl

theorem notMarked_eq (e : Endian) {m : List Byte} (h : 16 ≤ m.length) :
    notMarked e m = some (decide (m.take 16 ≠ marker)) := by
  have hm : chunkMarker.length = 16 := rfl
  obtain ⟨a, ha, -⟩ := load64_ok e (m := m) (i := 0) (by omega)
  obtain ⟨b, hb, -⟩ := load64_ok e (m := chunkMarker) (i := 0) (by omega)
  obtain ⟨c, hc, -⟩ := load64_ok e (m := m) (i := 8) (by omega)
  obtain ⟨d, hd, -⟩ := load64_ok e (m := chunkMarker) (i := 8) (by omega)
  have h1 := load64_slice (by omega) (by omega) ha hb
  have h2 := load64_slice (by omega) (by omega) hc hd
  unfold notMarked
  rw [ha, hb]
  simp only
  by_cases hab : a = b
  · rw [if_neg (by simpa using hab), hc, hd]
    simp only
    congr 1
    rw [decide_eq_decide]
    rw [List.drop_zero, List.drop_zero] at h1
    refine not_congr (h2.trans ⟨fun hs => ?_, fun hs => ?_⟩)
    · have := take_split 8 8 (h1.1 hab) hs
      rw [this]; rfl
    · have h3 : m.take 16 = chunkMarker.take 16 := by rw [hs]; rfl
      have h4 := congrArg (List.drop 8) h3
      rwa [List.drop_take, List.drop_take] at h4
  · rw [if_pos hab]
    congr 1
    symm
    rw [decide_eq_true_iff]
    intro hs
    apply hab
    rw [h1]
    have h3 : m.take 16 = chunkMarker.take 16 := by rw [hs]; rfl
    have h4 := congrArg (List.take 8) h3
    rw [List.take_take, List.take_take] at h4
    exact h4

theorem swapBe64_swapBe64 (e : Endian) (v : BitVec 64) : swapBe64 e (swapBe64 e v) = v := by
  cases e
  · exact swap64_swap64 v
  · rfl

theorem load64_wordBytes (e : Endian) {m : List Byte} {i : Nat} {v : BitVec 64} (h : i + 8 ≤ m.length)
    (hs : (m.drop i).take 8 = wordBytes64 e v) : load64 e m i = some v := by
  obtain ⟨w, h1, h2⟩ := load64_ok e h
  rw [← slice_bits m i 8, hs] at h2
  have h3 := wordBytes64_swap e (swapBe64 e v)
  rw [swapBe64_swapBe64] at h3
  rw [h3, bytesBits_wordBytes64] at h2
  rw [h1]
  exact congrArg some (swapBe64_inj (BitVec.eq_of_toNat_eq (bitsOf_inj h2 (BitVec.isLt _) (BitVec.isLt _))))

theorem extract_byte (n i : Nat) (hi : i < 8) :
    (BitVec.ofNat 64 n).extractLsb' (8 * i) 8 = BitVec.ofNat 8 (n / 2 ^ (8 * i)) := by
  apply BitVec.eq_of_getLsbD_eq
  intro j hj
  simp only [BitVec.getLsbD_extractLsb', BitVec.getLsbD_ofNat, Nat.testBit_div_two_pow]
  rw [Nat.add_comm (8 * i) j]
  simp [hj, show j + 8 * i < 64 by omega]

/-- Little-endian? -/
def Endian.isLittle : Endian → Bool
  | .little => true
  | .big => false

theorem wordBytes_size (e : Endian) (n : Nat) :
    wordBytes64 e (BitVec.ofNat 64 n) = if e.isLittle then sizeBytes n else (sizeBytes n).reverse := by
  have h := extract_byte n
  have h0 := h 0 (by omega); have h1 := h 1 (by omega); have h2 := h 2 (by omega); have h3 := h 3 (by omega)
  have h4 := h 4 (by omega); have h5 := h 5 (by omega); have h6 := h 6 (by omega); have h7 := h 7 (by omega)
  have hs : sizeBytes n = [BitVec.ofNat 8 (n / 2 ^ (8 * 0)), BitVec.ofNat 8 (n / 2 ^ (8 * 1)),
    BitVec.ofNat 8 (n / 2 ^ (8 * 2)), BitVec.ofNat 8 (n / 2 ^ (8 * 3)), BitVec.ofNat 8 (n / 2 ^ (8 * 4)),
    BitVec.ofNat 8 (n / 2 ^ (8 * 5)), BitVec.ofNat 8 (n / 2 ^ (8 * 6)), BitVec.ofNat 8 (n / 2 ^ (8 * 7))] := rfl
  rw [hs, ← h0, ← h1, ← h2, ← h3, ← h4, ← h5, ← h6, ← h7]
  cases e <;> rfl

theorem _root_.Lib842.Spec.Run.det {o : List Byte} {ops : List Op} {o1 o2 : List Byte} (hv : ∀ op ∈ ops, op.Valid)
    (h1 : Run o ops o1) (h2 : Run o ops o2) : o1 = o2 := by
  induction h1 with
  | nil => cases h2; rfl
  | cons hs _ ih =>
    cases h2 with
    | cons hs' h2' =>
      have := OpStep.det (hv _ (List.mem_cons_self ..)) hs hs'
      subst this
      exact ih (fun op h => hv op (List.mem_cons_of_mem _ h)) h2'

/-- A work item on a chunk stored as it is. -/
theorem oclItem_raw (e : Endian) {x inp buf : List Byte} (ilen olen : Option Nat) (h8 : x.length % 8 = 0)
    (h24 : 16 ≤ x.length) (hin : inp.take x.length = x) (hnm : x.take 16 ≠ marker) (hout : x.length ≤ buf.length) :
    oclItem e .maybe x.length inp buf ilen olen = .ret none x.length (x ++ buf.drop x.length) := by
  have hil : x.length ≤ inp.length := by
    have := congrArg List.length hin; simp at this; omega
  have ht : inp.take 16 = x.take 16 := by
    rw [← hin, List.take_take, Nat.min_eq_left h24]
  unfold oclItem
  simp only [if_true, Option.getD_some]
  rw [notMarked_eq e (by omega), ht]
  simp only [hnm, ne_eq, not_false_eq_true, decide_true]
  unfold copyWords
  rw [show 8 * (x.length / 8) = x.length by omega, readBytes_ok (by omega), List.drop_zero, hin]
  simp only [Option.bind_some]
  rw [writeBytes_ok (by omega)]
  simp

/-- A work item on a compressed chunk; `src = none`: in place. -/
theorem oclItem_comp (e : Endian) (fmt : ClFormat) (hfmt : fmt ≠ .always) {x inp buf : List Byte}
    (ilen olen : Option Nat) (h8 : x.length % 8 = 0) (h64 : x.length < 2 ^ 64)
    (hc : StoredCompressed e.isLittle x ((if fmt = .maybe then inp else buf).take x.length))
    (hout : x.length ≤ buf.length) (hol : ∀ o, olen = some o → x.length ≤ o)
    (hk : fmt = .maybe ∨ ∃ ops rest n, Expands ops x ∧ (∀ op ∈ ops, op.isShort = false) ∧ 32 ≤ rest.length ∧
      (buf.drop 16).take 8 = (if e.isLittle then sizeBytes n else (sizeBytes n).reverse) ∧
      0 < n ∧ n % 8 = 0 ∧ n + 24 ≤ x.length ∧
      bytesBits ((buf.drop (x.length - n)).take n) = ops.flatMap Op.bits ++ (bitsOf 5 0x1e ++ rest) ∧
      ∀ pre post o, ops = pre ++ post → Run [] pre o →
        o.length ≤ 8 * ((x.length - n) / 8 + wordsUsed (pre.flatMap Op.bits).length + 6) ∨
        n ≤ 8 * (wordsUsed (pre.flatMap Op.bits).length + 6)) :
    ∃ b, oclItem e fmt x.length inp buf ilen olen = .ret none x.length b ∧ b = x ++ buf.drop x.length := by
  obtain ⟨my, hmy⟩ : ∃ my, my = if fmt = .maybe then inp else buf := ⟨_, rfl⟩
  rw [← hmy] at hc
  obtain ⟨hl, hm, n, hn0, hn8, hn, hsz, hdec⟩ := hc
  have hml : x.length ≤ my.length := by simp at hl; omega
  rw [List.take_take, Nat.min_eq_left (by omega)] at hm
  have hsz' : (my.drop 16).take 8 = wordBytes64 e (BitVec.ofNat 64 n) := by
    rw [wordBytes_size, ← hsz, List.drop_take, List.take_take, Nat.min_eq_left (by omega)]
  have hload := load64_wordBytes e (by omega) hsz'
  have hdr : (my.take x.length).drop (x.length - n) = (my.drop (x.length - n)).take n := by
    rw [List.drop_take]; congr 1; omega
  rw [hdr] at hdec
  have hsrc : (if fmt = .maybe then some inp else none).getD buf = my := by
    rw [hmy]; split <;> rfl
  have hoff : (BitVec.ofNat 64 x.length - BitVec.ofNat 64 n).toNat / 8 = (x.length - n) / 8 := by
    rw [BitVec.toNat_sub]
    simp only [BitVec.toNat_ofNat]
    rw [Nat.mod_eq_of_lt (by omega : n < 2 ^ 64), Nat.mod_eq_of_lt h64,
      show 2 ^ 64 - n + x.length = x.length - n + 2 ^ 64 by omega, Nat.add_mod_right,
      Nat.mod_eq_of_lt (by omega)]
  have hnat : (BitVec.ofNat 64 n).toNat = n := by simp; omega
  have hnz : BitVec.ofNat 64 n ≠ 0#64 := by
    intro h
    have := congrArg BitVec.toNat h
    rw [hnat] at this
    simp at this; omega
  have hio : 8 * ((x.length - n) / 8) = x.length - n := by omega
  have hin : 8 * (n / 8) = n := by omega
  have hle : x.length ≤ olen.getD (2 ^ 64 - 1) := by
    cases olen with
    | none => simp only [Option.getD_none]; omega
    | some o => exact hol o rfl
  have key : ∃ ops rest, Expands ops x ∧ (∀ op ∈ ops, op.isShort = false) ∧ 32 ≤ rest.length ∧
      bytesBits ((my.drop (x.length - n)).take n) = ops.flatMap Op.bits ++ (bitsOf 5 0x1e ++ rest) ∧
      ((if fmt = .maybe then some inp else none) ≠ none ∨ ∀ pre post o, ops = pre ++ post → Run [] pre o →
        o.length ≤ 8 * ((x.length - n) / 8 + wordsUsed (pre.flatMap Op.bits).length + 6) ∨
        n ≤ 8 * (wordsUsed (pre.flatMap Op.bits).length + 6)) := by
    by_cases hf : fmt = .maybe
    · obtain ⟨ops, rest, h1, h2, h3, h4⟩ := opsDecode_of_hw hdec
      exact ⟨ops, rest, h1, h2, h3, h4, .inl (by simp [hf])⟩
    · rcases hk with hk | ⟨ops, rest, n', h1, h2, h3, h4, h5, h6, h7, h8', h9⟩
      · exact absurd hk hf
      · rw [if_neg hf] at hmy
        subst hmy
        have : n' = n := by
          rw [← wordBytes_size] at h4
          have h := load64_wordBytes e (by omega) h4
          rw [hload] at h
          have h := congrArg BitVec.toNat (Option.some.inj h)
          simp only [BitVec.toNat_ofNat] at h
          rw [Nat.mod_eq_of_lt (by omega), Nat.mod_eq_of_lt (by omega)] at h
          omega
        subst this
        exact ⟨ops, rest, h1, h2, h3, h8', .inr h9⟩
  obtain ⟨ops, rest, h1, h2, h3, h4, h5⟩ := key
  obtain ⟨b, hb, hbl, hbt, hbd⟩ := oclCore_of e (if fmt = .maybe then some inp else none) ((x.length - n) / 8) n buf
    (olen.getD (2 ^ 64 - 1)) (by rw [hsrc]; omega) h1 h2 h3 (by rw [hsrc, hio, hin]; exact h4) hle hout h5
  refine ⟨b, ?_, ?_⟩
  · unfold oclItem
    cases fmt with
    | always => exact absurd rfl hfmt
    | maybe =>
      simp only [if_true, Option.getD_some] at hsrc ⊢
      simp only [hsrc, if_true] at hb ⊢
      rw [notMarked_eq e (by omega), hm, hload]
      simp only [ne_eq, not_true_eq_false, decide_false, if_neg hnz, hoff, hnat]
      exact hb
    | inplace =>
      simp only [reduceCtorEq, if_false, Option.getD_none] at hsrc hb ⊢
      simp only [hsrc] at hb ⊢
      rw [notMarked_eq e (by omega), hm, hload]
      simp only [ne_eq, not_true_eq_false, decide_false, if_neg hnz, hoff, hnat]
      exact hb
  · rw [← List.take_append_drop x.length b, hbt, hbd]

/-- What the host packs: the chunk as it is, or the marker, the size and the stream. -/
theorem packChunk_cases (e : Endian) (ain aout : Nat) (j : OptJunk) (jsw : CompJunk) {x old tmp : List Byte}
    (h8 : x.length % 8 = 0) (h24 : 24 ≤ x.length) (hold : old.length = x.length) (htmp : 2 * x.length ≤ tmp.length)
    (hal : (ain % 8 = 0 ∧ aout % 8 = 0) ∨ 2 * x.length ≤ 0xffffffff) :
    ∃ n t c, optsw842Compress e ain aout j jsw x tmp = .ret none n t ∧ packChunk e ain aout j jsw x old tmp = some c ∧
      ((x.length - 24 < n ∧ c = x) ∨ (n ≤ x.length - 24 ∧ 0 < n ∧ n % 8 = 0 ∧ StoredCompressed e.isLittle x c ∧
        (c.drop 16).take 8 = (if e.isLittle then sizeBytes n else (sizeBytes n).reverse) ∧
        c.drop (x.length - n) = t.take n)) := by
  have hne : x ≠ [] := by rintro rfl; simp at h24
  obtain ⟨n, t, hc, hn⟩ := Props.C12_opt_worst_case e ain aout j jsw x tmp h8 hne (by omega) (by omega)
  obtain ⟨-, hdec⟩ := Props.C26_opt_hw_compatible e ain aout j jsw x tmp n t hc
  obtain ⟨hn0, hn8, hnt, hntl, -, -⟩ := Props.C07_opt_length_contract e e ain aout ain aout j j jsw jsw x tmp tmp n n t t
    Iff.rfl hc hc
  unfold packChunk
  rw [hc]
  simp only
  by_cases hbig : n > x.length - 16 - 8
  · rw [if_pos hbig]
    exact ⟨n, t, x, rfl, rfl, .inl ⟨by omega, rfl⟩⟩
  · rw [if_neg hbig]
    have hml : chunkMarker.length = 16 := rfl
    have hwl := length_wordBytes64 e (BitVec.ofNat 64 n)
    have htl : (t.take n).length = n := by simp; omega
    rw [writeBytes_ok (by omega), Option.bind_some]
    rw [writeBytes_ok (by simp; omega), Option.bind_some]
    rw [writeBytes_ok (by simp; omega)]
    have e1 : (old.take 0 ++ chunkMarker ++ old.drop (0 + chunkMarker.length)).take 16 = chunkMarker := by
      rw [List.take_zero, List.nil_append, List.take_append_of_le_length (by omega), List.take_of_length_le (by omega)]
    have e2 : (old.take 0 ++ chunkMarker ++ old.drop (0 + chunkMarker.length)).length = x.length := by simp; omega
    generalize old.take 0 ++ chunkMarker ++ old.drop (0 + chunkMarker.length) = b1 at e1 e2
    rw [e1, hwl]
    have e3 : (chunkMarker ++ wordBytes64 e (BitVec.ofNat 64 n) ++ b1.drop (16 + 8)).take 24 =
        chunkMarker ++ wordBytes64 e (BitVec.ofNat 64 n) := by
      rw [List.take_append_of_le_length (by simp; omega), List.take_of_length_le (by simp; omega)]
    have e4 : (chunkMarker ++ wordBytes64 e (BitVec.ofNat 64 n) ++ b1.drop (16 + 8)).length = x.length := by simp; omega
    generalize chunkMarker ++ wordBytes64 e (BitVec.ofNat 64 n) ++ b1.drop (16 + 8) = b2 at e3 e4
    have e5 : b2.drop (x.length - n + (t.take n).length) = [] := List.drop_of_length_le (by omega)
    rw [e5, List.append_nil]
    have e6 : (b2.take (x.length - n) ++ t.take n).take 24 = chunkMarker ++ wordBytes64 e (BitVec.ofNat 64 n) := by
      rw [List.take_append_of_le_length (by simp; omega), List.take_take, Nat.min_eq_left (by omega), e3]
    have s1 : (b2.take (x.length - n) ++ t.take n).take 16 = marker := by
      have := congrArg (List.take 16) e6
      rw [List.take_take, Nat.min_eq_left (by omega), List.take_append_of_le_length (l₁ := chunkMarker) (by omega),
        List.take_of_length_le (l := chunkMarker) (by omega)] at this
      exact this
    have s2 : ((b2.take (x.length - n) ++ t.take n).drop 16).take 8 =
        (if e.isLittle then sizeBytes n else (sizeBytes n).reverse) := by
      have := congrArg (List.drop 16) e6
      rw [List.drop_take, List.drop_append_of_le_length (l₁ := chunkMarker) (by omega),
        List.drop_of_length_le (l := chunkMarker) (by omega), List.nil_append] at this
      rw [this, wordBytes_size]
    have s3 : (b2.take (x.length - n) ++ t.take n).drop (x.length - n) = t.take n := by
      rw [List.drop_append_of_le_length (by simp; omega), List.drop_of_length_le (by simp), List.nil_append]
    exact ⟨n, t, _, rfl, rfl, .inr ⟨by omega, hn0, hn8, ⟨by simp; omega, s1, n, hn0, hn8, by omega, s2, by rw [s3]; exact hdec⟩, s2, s3⟩⟩

/-- What the host packs is a correct chunk. -/
theorem packChunk_ok (e : Endian) (ain aout : Nat) (j : OptJunk) (jsw : CompJunk) {x old tmp : List Byte}
    (h8 : x.length % 8 = 0) (h24 : 24 ≤ x.length) (hold : old.length = x.length) (htmp : 2 * x.length ≤ tmp.length)
    (hal : (ain % 8 = 0 ∧ aout % 8 = 0) ∨ 2 * x.length ≤ 0xffffffff) :
    ∃ c, packChunk e ain aout j jsw x old tmp = some c ∧ (c = x ∨ StoredCompressed e.isLittle x c) := by
  obtain ⟨n, t, c, -, h, hc⟩ := packChunk_cases e ain aout j jsw h8 h24 hold htmp hal
  refine ⟨c, h, ?_⟩
  rcases hc with ⟨-, h⟩ | ⟨-, -, -, h, -⟩
  · exact .inl h
  · exact .inr h

/-! ## Launch -/

/-- The chunk numbers of the work items that do something, in their order. -/
def processed (n : Nat) (shuffle : Option (List Nat)) (order : List Nat) : List Nat :=
  (order.filter (· < n)).map fun g => match shuffle with
    | none => g
    | some m => m.getD g 0

theorem filter_lt_perm {n g : Nat} {order : List Nat} (h : order.Perm (List.range g)) (hn : n ≤ g) :
    (order.filter (· < n)).Perm (List.range n) := by
  refine (List.perm_ext_iff_of_nodup ?_ List.nodup_range).2 ?_
  · exact (h.nodup_iff.2 List.nodup_range).filter _
  · intro a
    rw [List.mem_filter, h.mem_iff]
    simp; omega

theorem processed_perm {n g : Nat} {order : List Nat} (h : order.Perm (List.range g)) (hn : n ≤ g)
    {shuffle : Option (List Nat)} (hs : ∀ m, shuffle = some m → m.Perm (List.range n)) :
    (processed n shuffle order).Perm (List.range n) := by
  have h1 := filter_lt_perm h hn
  cases shuffle with
  | none => simpa [processed] using h1
  | some m =>
    have hm := hs m rfl
    have hml : m.length = n := by simpa using hm.length_eq
    refine (h1.map _).trans ?_
    have : (List.range n).map (fun g => m.getD g 0) = m := by
      apply List.ext_getElem (by simp [hml])
      intro i h1 h2
      simp [List.getD_eq_getElem?_getD, List.getElem?_eq_getElem h2]
    show ((List.range n).map fun g => m.getD g 0).Perm _
    rw [this]
    exact hm

theorem flatten_set {c : Nat} {cs : List (List Byte)} (hc : ∀ x ∈ cs, x.length = c) {i : Nat} (hi : i < cs.length)
    (x : List Byte) :
    cs.flatten.take (c * i) ++ (x ++ cs.flatten.drop (c * i + c)) = (cs.set i x).flatten := by
  induction cs generalizing i with
  | nil => simp at hi
  | cons a cs ih =>
    have ha : a.length = c := hc a (List.mem_cons_self ..)
    cases i with
    | zero => simp [← ha]
    | succ i =>
      have := ih (fun x hx => hc x (List.mem_cons_of_mem _ hx)) (i := i) (by simpa using hi)
      rw [List.set_cons_succ, List.flatten_cons, List.flatten_cons, ← this]
      have e1 : c * (i + 1) = a.length + c * i := by rw [ha, Nat.mul_succ, Nat.add_comm]
      have e2 : c * (i + 1) + c = a.length + (c * i + c) := by omega
      rw [e2, e1, List.take_length_add_append, List.drop_length_add_append, List.append_assoc]

theorem flatten_len {c : Nat} {cs : List (List Byte)} (hc : ∀ x ∈ cs, x.length = c) :
    cs.flatten.length = c * cs.length := by
  induction cs with
  | nil => simp
  | cons a cs ih =>
    rw [List.flatten_cons, List.length_append, ih (fun x hx => hc x (List.mem_cons_of_mem _ hx)),
      hc a (List.mem_cons_self ..), List.length_cons, Nat.mul_succ, Nat.add_comm]

theorem set_slice {c : Nat} {pre post : List Byte} {cs : List (List Byte)} (hc : ∀ x ∈ cs, x.length = c) {i : Nat}
    (hi : i < cs.length) (x : List Byte) :
    (pre ++ (cs.flatten ++ post)).take (pre.length + c * i) ++
        (x ++ ((pre ++ (cs.flatten ++ post)).drop (pre.length + c * i)).drop c) =
      pre ++ ((cs.set i x).flatten ++ post) := by
  have hl := flatten_len hc
  have hle : c * i + c ≤ cs.flatten.length := by
    rw [hl, ← Nat.mul_succ]; exact Nat.mul_le_mul_left _ hi
  rw [List.drop_drop, Nat.add_assoc, List.take_length_add_append, List.drop_length_add_append,
    List.take_append_of_le_length (by omega), List.drop_append_of_le_length hle, ← flatten_set hc hi]
  simp [List.append_assoc]

/-- A launch in which every work item restores its chunk restores them all, in whatever
order the items run. -/
theorem oclLaunch_ok (e : Endian) (fmt : ClFormat) (hfmt : fmt ≠ .inplace) (c stride inOff outOff : Nat)
    (inp : List Byte) (ilens olens : Option (List Nat)) (xs : List (List Byte)) (hx : ∀ x ∈ xs, x.length = c)
    (hc8 : c % 8 = 0)
    (hitem : ∀ i x, xs[i]? = some x → 8 * (inOff / 8 + stride / 8 * i) ≤ inp.length ∧
      ∃ il ol, optAt ilens i = some il ∧ optAt olens i = some ol ∧ ∀ buf : List Byte, c ≤ buf.length →
        oclItem e fmt c (inp.drop (8 * (inOff / 8 + stride / 8 * i))) buf il ol = .ret none c (x ++ buf.drop c))
    (shuffle : Option (List Nat)) (hs : ∀ m, shuffle = some m → m.Perm (List.range xs.length))
    (order : List Nat) (hord : order.Perm (List.range (oclGlobalSize xs.length)))
    (buf : List Byte) (hbuf : 8 * (outOff / 8) + c * xs.length ≤ buf.length) :
    ∃ out, oclLaunch e fmt c stride inOff outOff inp ilens olens xs.length shuffle order buf = some out ∧
      out.buf = buf.take (8 * (outOff / 8)) ++ (xs.flatten ++ buf.drop (8 * (outOff / 8) + c * xs.length)) ∧
      out.lens.Perm ((List.range xs.length).map fun i => (i, c)) ∧
      out.rets.Perm ((List.range xs.length).map fun i => (i, none)) := by
  have hG : xs.length ≤ oclGlobalSize xs.length := by unfold oclGlobalSize; omega
  have hperm := processed_perm hord hG hs
  obtain ⟨pre, hpre⟩ : ∃ pre, pre = buf.take (8 * (outOff / 8)) := ⟨_, rfl⟩
  obtain ⟨post, hpost⟩ : ∃ post, post = buf.drop (8 * (outOff / 8) + c * xs.length) := ⟨_, rfl⟩
  have hprel : pre.length = 8 * (outOff / 8) := by rw [hpre]; simp; omega
  rw [← hpre, ← hpost]
  have main : ∀ (order : List Nat) (done : List Nat) (cs : List (List Byte)) (s : ClOut),
      (∀ g ∈ processed xs.length shuffle order, g < xs.length) →
      (∀ m, shuffle = some m → m.length = xs.length) →
      cs.length = xs.length → (∀ x ∈ cs, x.length = c) → (∀ i ∈ done, cs[i]? = xs[i]?) →
      s.buf = pre ++ (cs.flatten ++ post) →
      ∃ (cs' : List (List Byte)) (out : ClOut), order.foldlM (fun s gid => oclWorkItem e fmt c stride inOff outOff inp ilens olens
          xs.length shuffle gid s) s = some out ∧ cs'.length = xs.length ∧
        (∀ i, i ∈ done ∨ i ∈ processed xs.length shuffle order → cs'[i]? = xs[i]?) ∧
        out.buf = pre ++ (cs'.flatten ++ post) ∧
        out.lens = ((processed xs.length shuffle order).map fun i => (i, c)).reverse ++ s.lens ∧
        out.rets = ((processed xs.length shuffle order).map fun i => (i, none)).reverse ++ s.rets := by
    intro order
    induction order with
    | nil =>
      intro done cs s _ _ hl _ hd hb
      exact ⟨cs, s, rfl, hl, fun i hi => hd i (by simpa [processed] using hi), hb, by simp [processed], by simp [processed]⟩
    | cons g order ih =>
      intro done cs s hlt hml hl hcl hd hb
      rw [List.foldlM_cons]
      by_cases hg : g < xs.length
      · obtain ⟨i, hi⟩ : ∃ i, i = (match shuffle with | none => g | some m => m.getD g 0) := ⟨_, rfl⟩
        have hproc : processed xs.length shuffle (g :: order) = i :: processed xs.length shuffle order := by
          unfold processed
          rw [List.filter_cons_of_pos (by simpa using hg), List.map_cons, hi]
          cases shuffle <;> rfl
        rw [hproc] at hlt ⊢
        have hil : i < xs.length := hlt i (List.mem_cons_self ..)
        obtain ⟨x, hxi⟩ : ∃ x, xs[i]? = some x := ⟨_, List.getElem?_eq_getElem hil⟩
        obtain ⟨hio, il, ol, h1, h2, h3⟩ := hitem i x hxi
        have hoff : 8 * (outOff / 8 + c / 8 * i) = pre.length + c * i := by
          rw [hprel, Nat.mul_add, ← Nat.mul_assoc]
          congr 2; omega
        have hfl := flatten_len hcl
        have hci : c * i + c ≤ c * xs.length := by rw [← Nat.mul_succ]; exact Nat.mul_le_mul_left _ hil
        have hsl : s.buf.length = pre.length + (c * xs.length + post.length) := by
          rw [hb, List.length_append, List.length_append, hfl, hl]
        have hchunk : oclChunk e fmt c stride inOff outOff inp ilens olens i s =
            some { buf := pre ++ ((cs.set i x).flatten ++ post), lens := (i, c) :: s.lens,
                   rets := (i, none) :: s.rets } := by
          unfold oclChunk
          simp only
          rw [if_neg (by rintro (⟨-, h⟩ | ⟨h, -⟩ | h) <;> first | omega | exact hfmt h), h1, h2]
          simp only
          rw [h3 _ (by rw [List.length_drop, hoff]; omega), hoff, hb]
          simp only
          rw [set_slice hcl (by omega)]
        have hwork : oclWorkItem e fmt c stride inOff outOff inp ilens olens xs.length shuffle g s =
            oclChunk e fmt c stride inOff outOff inp ilens olens i s := by
          unfold oclWorkItem
          rw [if_neg (by omega)]
          cases shuffle with
          | none => simp only at hi ⊢; rw [hi]
          | some m =>
            have := hml m rfl
            simp only at hi ⊢
            rw [List.getD_eq_getElem?_getD, List.getElem?_eq_getElem (by omega)] at hi
            rw [List.getElem?_eq_getElem (by omega), hi]; rfl
        rw [hwork, hchunk]
        have hset : ∀ k, k = i ∨ k ∈ done → (cs.set i x)[k]? = xs[k]? := by
          rintro k hk
          by_cases hki : k = i
          · subst hki; rw [List.getElem?_set_self (by omega), hxi]
          · rw [List.getElem?_set_ne (Ne.symm hki)]; exact hd k (by tauto)
        obtain ⟨cs', out, h4, h5, h6, h7, h8, h9⟩ := ih (i :: done) (cs.set i x)
          { buf := pre ++ ((cs.set i x).flatten ++ post), lens := (i, c) :: s.lens, rets := (i, none) :: s.rets }
          (fun k hk => hlt k (List.mem_cons_of_mem _ hk)) hml (by simpa using hl)
          (fun y hy => by
            rcases List.mem_or_eq_of_mem_set hy with h | h
            · exact hcl y h
            · rw [h]; exact hx x (List.mem_of_getElem? hxi))
          (fun k hk => hset k (by simpa using hk)) rfl
        refine ⟨cs', out, h4, h5, fun k hk => h6 k ?_, h7, ?_, ?_⟩
        · simp only [List.mem_cons] at hk ⊢; tauto
        · rw [h8]; simp
        · rw [h9]; simp
      · have hproc : processed xs.length shuffle (g :: order) = processed xs.length shuffle order := by
          unfold processed
          rw [List.filter_cons_of_neg (by simpa using hg)]
        rw [hproc] at hlt ⊢
        have hwork : oclWorkItem e fmt c stride inOff outOff inp ilens olens xs.length shuffle g s = some s := by
          unfold oclWorkItem
          rw [if_pos (by omega)]
        rw [hwork]
        exact ih done cs s hlt hml hl hcl hd hb
  -- cut the output buffer into chunks
  have hcut : ∀ (n : Nat) (l : List Byte), l.length = c * n →
      ∃ cs : List (List Byte), cs.length = n ∧ (∀ x ∈ cs, x.length = c) ∧ cs.flatten = l := by
    intro n
    induction n with
    | zero => intro l hl; exact ⟨[], rfl, by simp, (List.eq_nil_of_length_eq_zero (by simpa using hl)).symm⟩
    | succ n ih =>
      intro l hl
      rw [Nat.mul_succ] at hl
      obtain ⟨cs, h1, h2, h3⟩ := ih (l.drop c) (by rw [List.length_drop]; omega)
      refine ⟨l.take c :: cs, by simp [h1], ?_, by rw [List.flatten_cons, h3, List.take_append_drop]⟩
      intro x hx
      rcases List.mem_cons.1 hx with rfl | hx
      · rw [List.length_take]; omega
      · exact h2 x hx
  obtain ⟨cs, hcs1, hcs2, hcs3⟩ := hcut xs.length ((buf.drop (8 * (outOff / 8))).take (c * xs.length))
    (by rw [List.length_take, List.length_drop]; omega)
  obtain ⟨cs', out, h1, h2, h3, h4, h5, h6⟩ := main order [] cs { buf := buf, lens := [], rets := [] }
    (fun g hg => by have := hperm.mem_iff.1 hg; simpa using this)
    (fun m hm => by simpa using (hs m hm).length_eq) hcs1 hcs2 (by simp)
    (by
      simp only
      rw [hcs3, hpre, hpost, ← List.drop_drop, List.take_append_drop, List.take_append_drop])
  have hcs' : cs' = xs := by
    apply List.ext_getElem?
    intro i
    by_cases hi : i < xs.length
    · exact h3 i (.inr (hperm.mem_iff.2 (by simpa using hi)))
    · rw [List.getElem?_eq_none (by omega), List.getElem?_eq_none (by omega)]
  refine ⟨out, h1, by rw [h4, hcs'], ?_, ?_⟩
  · rw [h5, List.append_nil]
    exact (List.reverse_perm _).trans (hperm.map _)
  · rw [h6, List.append_nil]
    exact (List.reverse_perm _).trans (hperm.map _)

end Lib842
