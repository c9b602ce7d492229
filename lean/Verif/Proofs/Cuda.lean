import Verif.Model.Cuda
import Verif.Proofs.DecStep
import Verif.Proofs.Ocl
import Verif.Proofs.OclKernel
/-!
# The CUDA decoder on streams of the format
-/

namespace Lib842
open Spec

/-- The bits not consumed yet, as far as they are in complete words. -/
def CudaP.rest (p : CudaP) : List Bool :=
  winBits p.buffer p.bits ++ (bytesBits (p.inp.take (8 * (p.inp.length / 8)))).drop (64 * p.word)

def CudaP.outp (p : CudaP) : List Byte := p.buf.take (8 * p.out)

/-- Same output. -/
structure CSame (p q : CudaP) : Prop where
  buf : q.buf = p.buf
  out : q.out = p.out

/-- Same input position. -/
structure CIn (p q : CudaP) : Prop where
  rest : q.rest = p.rest
  win : WinOk p.buffer p.bits → WinOk q.buffer q.bits

theorem CIn.trans {p q r : CudaP} (h : CIn p q) (h' : CIn q r) : CIn p r :=
  ⟨h'.rest.trans h.rest, fun w => h'.win (h.win w)⟩

theorem CSame.outp {p q : CudaP} (h : CSame p q) : q.outp = p.outp := by
  unfold CudaP.outp; rw [h.buf, h.out]

theorem CSame.trans {p q r : CudaP} (h : CSame p q) (h' : CSame q r) : CSame p r :=
  ⟨h'.buf.trans h.buf, h'.out.trans h.out⟩

theorem cudaReadBits_spec {n x : Nat} (hn : n ≤ 64) (hx : x < 2 ^ n) {p : CudaP} {R : List Bool}
    (hw : WinOk p.buffer p.bits) (hr : p.rest = bitsOf n x ++ R) :
    ∃ p', cudaReadBits n p = .ok (BitVec.ofNat 64 x) p' ∧ CSame p p' ∧ p'.rest = R ∧
      WinOk p'.buffer p'.bits := by
  have key : ∀ (v : BitVec 64) (S : List Bool), v.toNat < 2 ^ n → p.rest = bitsOf n v.toNat ++ S →
      v = BitVec.ofNat 64 x ∧ S = R := by
    intro v S hv hs
    rw [hr] at hs
    obtain ⟨h1, h2⟩ := List.append_inj hs (by simp)
    have := bitsOf_inj h1 hx hv
    subst this
    exact ⟨by simp, h2.symm⟩
  unfold cudaReadBits
  rw [M.get_bind_apply]
  by_cases h0 : n = 0
  · subst h0
    rw [if_neg (by omega)]
    have : x = 0 := by omega
    subst this
    have hrr : p.rest = R := by rw [hr]; rfl
    refine ⟨_, rfl, ⟨rfl, rfl⟩, ?_, ?_⟩
    · rw [← hrr]; unfold CudaP.rest; simp
    · simpa using hw
  have hval : (if n ≤ 0 then 0#64 else p.buffer >>> (64 - n)) = p.buffer >>> (64 - n) := if_neg (by omega)
  rw [hval]
  by_cases hlt : p.bits < n
  · rw [if_pos hlt]
    have hlen : 8 * p.word + 8 ≤ 8 * (p.inp.length / 8) := by
      have hl := congrArg List.length hr
      unfold CudaP.rest at hl
      simp only [List.length_append, length_winBits, List.length_drop, length_bytesBits,
        List.length_take, length_bitsOf] at hl
      omega
    obtain ⟨w, hw1, hw2⟩ := load64_word .little (m := p.inp) (k := p.word) (by omega)
    have hw2 := hw2 _ hlen
    rw [M.access_bind_some (g := fun p : CudaP => (load64 .little p.inp (8 * p.word)).map swap64)
      (a := swap64 w) (by simp [hw1])]
    obtain ⟨v, b', h1, h2, h3, h4⟩ := winMiss_bits (w := swap64 w) hw hlt hn
    have hbits := hw.choose_spec.lt
    unfold winMiss at h1
    rw [cshr_some (m := 64 - n) (by omega) (by omega), cshr_some (m := 64 - (n - p.bits)) (by omega) (by omega),
      cshl_some (m := n - p.bits - 1) (by omega) (by omega)] at h1
    simp only [Option.some.injEq, Prod.mk.injEq] at h1
    obtain ⟨h1a, h1b, -⟩ := h1
    have hrest : p.rest = bitsOf n v.toNat ++ (winBits b' (p.bits + 64 - n) ++
        (bytesBits (p.inp.take (8 * (p.inp.length / 8)))).drop (64 * (p.word + 1))) := by
      unfold CudaP.rest
      rw [hw2, ← List.append_assoc, ← List.append_assoc, ← h4]
      rfl
    obtain ⟨hk1, hk2⟩ := key v _ h2 hrest
    rw [M.modify_bind_apply]
    have hsh : (swap64 w) <<< (n - p.bits) = ((swap64 w) <<< (n - p.bits - 1)) <<< 1 := by
      rw [← BitVec.shiftLeft_add]; congr 1; omega
    rw [M.pure_apply, h1a, hk1]
    refine ⟨_, rfl, ⟨rfl, rfl⟩, ?_, ?_⟩
    · rw [← hk2]
      unfold CudaP.rest
      simp only [hsh, h1b]
    · simp only [hsh, h1b]
      exact h3
  · rw [if_neg hlt]
    have hle : n ≤ p.bits := by omega
    obtain ⟨v, b', h1, h2, h3, h4⟩ := winHit_bits hw (by omega) hle
    have hbits := hw.choose_spec.lt
    unfold winHit at h1
    rw [cshr_some (m := 64 - n) (by omega) (by omega), cshl_some (m := n) (by omega) (by omega)] at h1
    simp only [Option.some.injEq, Prod.mk.injEq] at h1
    obtain ⟨h1a, h1b, -⟩ := h1
    have hrest : p.rest = bitsOf n v.toNat ++ (winBits b' (p.bits - n) ++
        (bytesBits (p.inp.take (8 * (p.inp.length / 8)))).drop (64 * p.word)) := by
      unfold CudaP.rest
      rw [h4, List.append_assoc]
    obtain ⟨hk1, hk2⟩ := key v _ h2 hrest
    rw [M.modify_bind_apply, M.pure_apply, h1a, hk1]
    refine ⟨_, rfl, ⟨rfl, rfl⟩, ?_, ?_⟩
    · rw [← hk2]
      unfold CudaP.rest
      simp only [h1b]
    · simp only [h1b]
      exact h3

/-! ## References -/

theorem bitsVal_zeros (k : Nat) (l : List Bool) : bitsVal (bitsOf k 0 ++ l) = bitsVal l := by
  rw [bitsVal_append, bitsVal_bitsOf]; simp

theorem toNat_bytes8 (a b c d f g h k : Byte) : (a ++ b ++ c ++ d ++ f ++ g ++ h ++ k).toNat =
    bitsVal (bytesBits [a, b, c, d, f, g, h, k]) := by
  refine eq_bitsVal (n := 64) ?_ (BitVec.isLt _)
  have key : bitsOf (8 + 8 + 8 + 8 + 8 + 8 + 8 + 8) (a ++ b ++ c ++ d ++ f ++ g ++ h ++ k).toNat =
      bytesBits [a, b, c, d, f, g, h, k] := by
    rw [bitsOf_bv_append, bitsOf_bv_append,
      bitsOf_bv_append, bitsOf_bv_append, bitsOf_bv_append, bitsOf_bv_append, bitsOf_bv_append]
    simp
  exact key

theorem shl2 (a b : Byte) : ((b ++ a).setWidth 64 : BitVec 64) <<< 48 =
    b ++ a ++ 0#8 ++ 0#8 ++ 0#8 ++ 0#8 ++ 0#8 ++ 0#8 := by
  apply BitVec.eq_of_getLsbD_eq
  intro i hi
  simp only [BitVec.getLsbD_append, BitVec.getLsbD_shiftLeft, BitVec.getLsbD_setWidth]
  interval_cases i <;> simp

theorem shl4 (a b c d : Byte) : (((d ++ c) ++ (b ++ a)).setWidth 64 : BitVec 64) <<< 32 =
    d ++ c ++ b ++ a ++ 0#8 ++ 0#8 ++ 0#8 ++ 0#8 := by
  apply BitVec.eq_of_getLsbD_eq
  intro i hi
  simp only [BitVec.getLsbD_append, BitVec.getLsbD_shiftLeft, BitVec.getLsbD_setWidth]
  interval_cases i <;> simp

theorem shl8 (a b c d f g h k : Byte) : (((k ++ h) ++ (g ++ f) ++ (d ++ c) ++ (b ++ a)) : BitVec 64) <<< 0 =
    k ++ h ++ g ++ f ++ d ++ c ++ b ++ a := by
  apply BitVec.eq_of_getLsbD_eq
  intro i hi
  simp only [BitVec.getLsbD_append, BitVec.getLsbD_shiftLeft]
  interval_cases i <;> simp

theorem load16_little {m : List Byte} {i : Nat} {a b : Byte} (h : (m.drop i).take 2 = [a, b]) :
    load16 .little m i = some (b ++ a) := by
  have hl : i + 2 ≤ m.length := by
    have := congrArg List.length h
    simp at this; omega
  unfold load16
  rw [readBytes_ok hl, h]

theorem take_shift {m : List Byte} {i j k n : Nat} (h : j + k ≤ n) :
    (m.drop (i + j)).take k = (((m.drop i).take n).drop j).take k := by
  rw [List.drop_take, List.drop_drop, List.take_take, Nat.min_eq_left (by omega)]

theorem cudaLoad_spec {dst o : Nat} (hd : SizeOk dst) {p : CudaP} (h : o + dst ≤ p.buf.length) :
    ∃ v, cudaLoad dst o p = .ok v p ∧ v.toNat = bitsVal (bytesBits ((p.buf.drop o).take dst)) := by
  have hlen : ((p.buf.drop o).take dst).length = dst := by simp; omega
  have h0 : ∀ j k, j + k ≤ dst → (p.buf.drop (o + j)).take k = (((p.buf.drop o).take dst).drop j).take k :=
    fun j k hjk => take_shift hjk
  unfold cudaLoad
  rcases hd with rfl | rfl | rfl
  · obtain ⟨a, b, hs⟩ := list_len2 hlen
    rw [hs] at h0 ⊢
    have e0 := load16_little (h0 0 2 (by omega))
    rw [Nat.add_zero] at e0
    rw [M.access_bind_some (g := fun p : CudaP => load16 .little p.buf o) e0]
    simp only [show ¬ (2 > 2) by omega, if_false, M.pure_bind_apply]
    refine ⟨_, rfl, ?_⟩
    rw [show 64 - 2 <<< 3 = 48 from rfl, shl2, swap64_append, toNat_bytes8]
    exact bitsVal_zeros 48 _
  · obtain ⟨a, b, c, d, hs⟩ := list_len4 hlen
    rw [hs] at h0 ⊢
    have e0 := load16_little (h0 0 2 (by omega))
    have e1 := load16_little (h0 2 2 (by omega))
    rw [Nat.add_zero] at e0
    rw [M.access_bind_some (g := fun p : CudaP => load16 .little p.buf o) e0]
    simp only [show (4 > 2) by omega, if_true, show ¬ (4 = 8) by omega, if_false]
    rw [M.access_bind_some (g := fun p : CudaP => load16 .little p.buf (o + 2)) e1]
    refine ⟨_, rfl, ?_⟩
    rw [show 64 - 4 <<< 3 = 32 from rfl, shl4, swap64_append, toNat_bytes8]
    exact bitsVal_zeros 32 _
  · obtain ⟨a, b, c, d, f, g, h, k, hs⟩ := list_len8 hlen
    rw [hs] at h0 ⊢
    have e0 := load16_little (h0 0 2 (by omega))
    have e1 := load16_little (h0 2 2 (by omega))
    have e2 := load16_little (h0 4 2 (by omega))
    have e3 := load16_little (h0 6 2 (by omega))
    rw [Nat.add_zero] at e0
    rw [M.access_bind_some (g := fun p : CudaP => load16 .little p.buf o) e0]
    simp only [show (8 > 2) by omega, if_true]
    rw [M.access_bind_some (g := fun p : CudaP => load16 .little p.buf (o + 2)) e1,
      M.access_bind_some (g := fun p : CudaP => load16 .little p.buf (o + 4)) e2,
      M.access_bind_some (g := fun p : CudaP => load16 .little p.buf (o + 6)) e3]
    refine ⟨_, rfl, ?_⟩
    rw [show 64 - 8 <<< 3 = 0 from rfl, shl8, swap64_append, toNat_bytes8]

theorem cudaGetIndex_eq {p : CudaP} {n v o : Nat} (hn : SizeOk n) (hv : v < 2 ^ indexBits n)
    (h : RingRef (8 * p.out) n v o) : cudaGetIndex p n v (ringSize n) = o := by
  have hrd : roundDown (8 * p.out) 8 = 8 * p.out := by unfold roundDown; omega
  have := (indexOffset_complete hn hv h).1
  rw [hrd] at this
  exact this

/-! ## Fields -/

/-- The fields of a row of `dec_templates` for a list of actions. -/
inductive CRow : List Action → List (Nat × Nat) → Prop
  | nil : CRow [] []
  | pad {fs} : CRow [] fs → CRow [] ((0, 0) :: fs)
  | d {n acts fs} : SizeOk n → CRow acts fs → CRow (.D n :: acts) ((8 * n, n) :: fs)
  | i {n acts fs} : SizeOk n → CRow acts fs → CRow (.I n :: acts) ((128 + indexBits n, n) :: fs)

def crowActs : List (Nat × Nat) → Option (List Action)
  | [] => some []
  | (t, n) :: fs =>
    match crowActs fs with
    | none => none
    | some acts =>
      if t = 0 ∧ n = 0 ∧ acts = [] then some []
      else if (n = 2 ∨ n = 4 ∨ n = 8) ∧ t = 8 * n then some (.D n :: acts)
      else if (n = 2 ∨ n = 4 ∨ n = 8) ∧ t = 128 + indexBits n then some (.I n :: acts)
      else none

theorem crowActs_ok : ∀ fs acts, crowActs fs = some acts → CRow acts fs := by
  intro fs
  induction fs with
  | nil => intro acts h; cases h; exact .nil
  | cons f fs ih =>
    intro acts h
    obtain ⟨t, n⟩ := f
    rw [crowActs] at h
    split at h
    · cases h
    · rename_i as hr
      have hrec := ih _ hr
      split at h
      · rename_i hc
        obtain ⟨rfl, rfl, rfl⟩ := hc
        cases h; exact .pad hrec
      · split at h
        · rename_i hc
          obtain ⟨hn, rfl⟩ := hc
          cases h; exact .d hn hrec
        · split at h
          · rename_i hc
            obtain ⟨hn, rfl⟩ := hc
            cases h; exact .i hn hrec
          · cases h

theorem cudaRow_ok {c : Nat} {acts : List Action} (h : templates[c]? = some acts) :
    ∃ row, cudaTemplates[c]? = some row ∧ CRow acts row := by
  have hall : ∀ c : Nat, c < 26 → ((cudaTemplates[c]?).bind crowActs = templates[c]?) := by decide +kernel
  have hc : c < 26 := (templates_ok c acts h).1
  have := hall c hc
  rw [h] at this
  cases hr : cudaTemplates[c]? with
  | none => rw [hr] at this; cases this
  | some row =>
    rw [hr] at this
    exact ⟨row, rfl, crowActs_ok _ _ this⟩

theorem cudaField_pad {p : CudaP} {ow : BitVec 64} {b : Nat} (hw : WinOk p.buffer p.bits) :
    ∃ p', cudaField 0 0 (ow, b) p = .ok (ow, b) p' ∧ CSame p p' ∧ p'.rest = p.rest ∧
      WinOk p'.buffer p'.bits := by
  obtain ⟨p1, h1, hs, hr, hw1⟩ := cudaReadBits_spec (n := 0) (x := 0) (by omega) (by omega) hw
    (R := p.rest) rfl
  refine ⟨p1, ?_, hs, hr, hw1⟩
  unfold cudaField
  rw [show (0 : Nat) &&& 0x7F = 0 from rfl, M.bind_ok h1]
  simp

theorem cudaField_data {n : Nat} (hn : SizeOk n) {new : List Byte} (hl : new.length = n) {p : CudaP}
    {R : List Bool} (hw : WinOk p.buffer p.bits) (hr : p.rest = bytesBits new ++ R) {ow : BitVec 64}
    {bs : List Byte} (hacc : Acc ow bs) (hsz : bs.length + n ≤ 8) :
    ∃ p' ow', cudaField (8 * n) n (ow, 8 * bs.length) p = .ok (ow', 8 * (bs ++ new).length) p' ∧
      CSame p p' ∧ p'.rest = R ∧ WinOk p'.buffer p'.bits ∧ Acc ow' (bs ++ new) := by
  have hb : bytesBits new = bitsOf (8 * n) (bitsVal (bytesBits new)) := by
    have := bitsOf_bitsVal (bytesBits new)
    rw [length_bytesBits, hl] at this
    exact this.symm
  have hlt : bitsVal (bytesBits new) < 2 ^ (8 * n) := by
    have := bitsVal_lt (bytesBits new)
    rwa [length_bytesBits, hl] at this
  have hn64 : 8 * n ≤ 64 := by rcases hn with rfl | rfl | rfl <;> omega
  have hlt64 : bitsVal (bytesBits new) < 2 ^ 64 :=
    Nat.lt_of_lt_of_le hlt (Nat.pow_le_pow_right (by omega) hn64)
  obtain ⟨p1, h1, hs, hr1, hw1⟩ := cudaReadBits_spec (n := 8 * n) hn64 hlt hw (R := R) (by rw [hr, ← hb])
  have hand : (8 * n) &&& 0x7F = 8 * n := by rcases hn with rfl | rfl | rfl <;> rfl
  have hsr : (8 * n) >>> 7 = 0 := by rcases hn with rfl | rfl | rfl <;> rfl
  have hsl : n <<< 3 = 8 * n := by rw [Nat.shiftLeft_eq]; omega
  refine ⟨p1, _, ?_, hs, hr1, hw1, hacc.step (new := new)
    (v := BitVec.ofNat 64 (bitsVal (bytesBits new))) (by omega) ?_ ?_⟩
  · unfold cudaField
    rw [hand, M.bind_ok h1]
    simp only [hsr, hsl, ne_eq, not_true_eq_false, if_false, M.pure_bind_apply, M.pure_apply]
    rw [if_pos (by omega), hl, List.length_append, hl, Nat.mul_add]
  · intro h; rw [h] at hl; rcases hn with rfl | rfl | rfl <;> simp at hl
  · rw [BitVec.toNat_ofNat, Nat.mod_eq_of_lt hlt64]

theorem cudaField_index {n v o : Nat} (hn : SizeOk n) (hv : v < 2 ^ indexBits n) {p : CudaP}
    {R : List Bool} (hw : WinOk p.buffer p.bits) (hr : p.rest = bitsOf (indexBits n) v ++ R) {ow : BitVec 64}
    {bs : List Byte} (hacc : Acc ow bs) (hsz : bs.length + n ≤ 8) (hol : 8 * p.out ≤ p.buf.length)
    (href : RingRef (8 * p.out) n v o) :
    ∃ p' ow', cudaField (128 + indexBits n) n (ow, 8 * bs.length) p =
        .ok (ow', 8 * (bs ++ (p.buf.drop o).take n).length) p' ∧
      CSame p p' ∧ p'.rest = R ∧ WinOk p'.buffer p'.bits ∧ Acc ow' (bs ++ (p.buf.drop o).take n) := by
  have hib := indexBits_bounds n
  obtain ⟨p1, h1, hs, hr1, hw1⟩ := cudaReadBits_spec (n := indexBits n) hib.2 hv hw hr
  have hle := RingRef_lt href
  have hand : (128 + indexBits n) &&& 0x7F = indexBits n := by rcases hn with rfl | rfl | rfl <;> rfl
  have hsr : (128 + indexBits n) >>> 7 = 1 := by rcases hn with rfl | rfl | rfl <;> rfl
  have hsl : n <<< 3 = 8 * n := by rw [Nat.shiftLeft_eq]; omega
  have hfs : cudaFifoSizes[n]? = some (ringSize n) := by rcases hn with rfl | rfl | rfl <;> rfl
  have hv64 : v < 2 ^ 64 := Nat.lt_of_lt_of_le hv (Nat.pow_le_pow_right (by omega) hib.2)
  have hgi : cudaGetIndex p1 n (BitVec.ofNat 64 v).toNat (ringSize n) = o := by
    rw [BitVec.toNat_ofNat, Nat.mod_eq_of_lt hv64]
    exact cudaGetIndex_eq hn hv (by rw [hs.out]; exact href)
  obtain ⟨w, hw2, hwv⟩ := cudaLoad_spec hn (p := p1) (o := o) (by rw [hs.buf]; omega)
  rw [hs.buf] at hwv
  have hlen : ((p.buf.drop o).take n).length = n := by simp; omega
  refine ⟨p1, _, ?_, hs, hr1, hw1, hacc.step (new := (p.buf.drop o).take n) (v := w) (by omega) ?_ hwv⟩
  · unfold cudaField
    rw [hand, M.bind_ok h1]
    simp only [hsr, ne_eq, one_ne_zero, not_false_eq_true, if_true]
    rw [M.get_bind_apply, M.access_bind_some (g := fun _ : CudaP => cudaFifoSizes[n]?) hfs, hgi, M.bind_ok hw2]
    simp only [M.pure_apply, hsl]
    rw [if_pos (by omega), hlen, List.length_append, hlen, Nat.mul_add]
  · intro h; rw [h] at hlen; rcases hn with rfl | rfl | rfl <;> simp at hlen

theorem cudaFields_spec {acts : List Action} {fs : List (Nat × Nat)} (h : CRow acts fs) {p : CudaP}
    (hw : WinOk p.buffer p.bits) (hol : 8 * p.out ≤ p.buf.length) {args : List Arg}
    (hargs : args.map Arg.action = acts) (hval : ∀ a ∈ args, a.Valid) {R : List Bool}
    (hr : p.rest = args.flatMap Arg.bits ++ R) {ow : BitVec 64} {bs : List Byte} (hacc : Acc ow bs)
    (hsz : bs.length + actionsSize acts ≤ 8) {o : List Byte} (hrun : ArgsRun (p.outp ++ bs) args o) :
    ∃ p' l bs', cudaFields fs (ow, 8 * bs.length) p = .ok l p' ∧ CSame p p' ∧ p'.rest = R ∧
      WinOk p'.buffer p'.bits ∧ Acc l.1 bs' ∧ o = p.outp ++ bs' := by
  induction h generalizing p args ow bs with
  | nil =>
    rw [List.map_eq_nil_iff] at hargs
    subst hargs
    cases hrun
    exact ⟨p, _, bs, rfl, ⟨rfl, rfl⟩, by simpa using hr, hw, hacc, rfl⟩
  | pad _ ih =>
    obtain ⟨p1, h1, hs1, hr1, hw1⟩ := cudaField_pad (ow := ow) (b := 8 * bs.length) hw
    rw [cudaFields, M.bind_ok h1]
    obtain ⟨p2, l, bs', h2, hs2, hr2, hw2, ha2, ho⟩ := ih hw1 (by rw [hs1.out, hs1.buf]; exact hol) hargs hval
      (by rw [hr1]; exact hr) hacc hsz (by rw [hs1.outp]; exact hrun)
    exact ⟨p2, l, bs', h2, hs1.trans hs2, hr2, hw2, ha2, by rw [ho, hs1.outp]⟩
  | @d n acts fs hn _ ih =>
    cases hrun with
    | nil => simp at hargs
    | @cons _ a _ as _ hst hrest =>
      rw [List.map_cons, List.cons.injEq] at hargs
      cases hst with
      | index _ => simp [Arg.action] at hargs
      | @data new =>
        have hl : new.length = n := by simpa [Arg.action] using hargs.1
        have hs : actionsSize (.D n :: acts) = n + actionsSize acts := by simp [actionsSize, actionSize]
        rw [List.flatMap_cons, List.append_assoc] at hr
        obtain ⟨p1, ow1, h1, hs1, hr1, hw1, ha1⟩ := cudaField_data hn hl hw hr hacc (by omega)
        rw [cudaFields, M.bind_ok h1]
        obtain ⟨p2, l, bs', h2, hs2, hr2, hw2, ha2, ho⟩ := ih hw1 (by rw [hs1.out, hs1.buf]; exact hol) hargs.2
          (fun x hx => hval x (List.mem_cons_of_mem _ hx)) hr1 ha1 (by rw [List.length_append]; omega)
          (by rw [hs1.outp, ← List.append_assoc]; exact hrest)
        exact ⟨p2, l, bs', h2, hs1.trans hs2, hr2, hw2, ha2, by rw [ho, hs1.outp]⟩
  | @i n acts fs hn _ ih =>
    cases hrun with
    | nil => simp at hargs
    | @cons _ a _ as _ hst hrest =>
      rw [List.map_cons, List.cons.injEq] at hargs
      cases hst with
      | data => simp [Arg.action] at hargs
      | @index n2 v r href =>
        obtain ⟨h1, hargs2⟩ := hargs
        simp only [Arg.action, Action.I.injEq] at h1
        subst h1
        have hs : actionsSize (.I n2 :: acts) = n2 + actionsSize acts := by simp [actionsSize, actionSize]
        have hv : v < 2 ^ indexBits n2 := hval _ List.mem_cons_self
        have hn2 : 2 ≤ n2 := by rcases hn with rfl | rfl | rfl <;> omega
        have hlo : p.outp.length = 8 * p.out := by unfold CudaP.outp; simp; omega
        rw [List.length_append, hlo] at href
        have href' := (RingRef_within (by omega) (by omega)).1 href
        have hlt := RingRef_lt href'
        rw [List.flatMap_cons, List.append_assoc] at hr
        obtain ⟨p1, ow1, h1, hs1, hr1, hw1, ha1⟩ := cudaField_index hn hv hw hr hacc (by omega) hol href'
        rw [cudaFields, M.bind_ok h1]
        have hcopy : ((p.outp ++ bs).drop r).take n2 = (p.buf.drop r).take n2 := by
          unfold CudaP.outp at hlo ⊢
          rw [List.drop_append_of_le_length (by omega), List.drop_take,
            List.take_append_of_le_length (by simp; omega), List.take_take, Nat.min_eq_left (by omega)]
        rw [hcopy] at hrest
        have hlen : ((p.buf.drop r).take n2).length = n2 := by simp; omega
        obtain ⟨p2, l, bs', h2, hs2, hr2, hw2, ha2, ho⟩ := ih hw1 (by rw [hs1.out, hs1.buf]; exact hol) hargs2
          (fun x hx => hval x (List.mem_cons_of_mem _ hx)) hr1 ha1 (by rw [List.length_append]; omega)
          (by rw [hs1.outp, ← List.append_assoc]; exact hrest)
        exact ⟨p2, l, bs', h2, hs1.trans hs2, hr2, hw2, ha2, by rw [ho, hs1.outp]⟩

/-! ## Output -/

/-- `p'` has the output `o` where `p` had less, the rest of the buffer is unchanged. -/
structure COut (p p' : CudaP) (o : List Byte) : Prop where
  len : 8 * p'.out = o.length
  buf : p'.buf = o ++ p.buf.drop o.length

theorem COut.outp {p p' : CudaP} {o : List Byte} (h : COut p p' o) : p'.outp = o := by
  unfold CudaP.outp
  rw [h.buf, h.len, List.take_left]

theorem COut.same {p p' : CudaP} (hol : 8 * p.out ≤ p.buf.length) (h : CSame p p') : COut p p' p.outp := by
  have hlo : p.outp.length = 8 * p.out := by unfold CudaP.outp; simp; omega
  refine ⟨by rw [h.out, hlo], ?_⟩
  rw [h.buf, hlo]
  exact (List.take_append_drop _ _).symm

theorem COut.trans {p q r : CudaP} {o o' : List Byte} (h : COut p q o) (h' : COut q r o')
    (hle : o.length ≤ o'.length) : COut p r o' := by
  refine ⟨h'.len, ?_⟩
  rw [h'.buf, h.buf, List.drop_append, List.drop_of_length_le hle, List.nil_append, List.drop_drop]
  congr 2; omega

theorem COut.length {p p' : CudaP} {o : List Byte} (h : COut p p' o) (ho : o.length ≤ p.buf.length) :
    p'.buf.length = p.buf.length := by
  rw [h.buf, List.length_append, List.length_drop]; omega

theorem cudaPut_ok {p : CudaP} {bs : List Byte} (hl : bs.length = 8) (hfit : 8 * p.out + 8 ≤ p.buf.length) :
    ∃ p', cudaPut bs p = .ok () p' ∧ COut p p' (p.outp ++ bs) ∧ CIn p p' := by
  have hlo : p.outp.length = 8 * p.out := by unfold CudaP.outp; simp; omega
  unfold cudaPut
  rw [M.update_bind_some (s' := { p with buf := p.buf.take (8 * p.out) ++ bs ++ p.buf.drop (8 * p.out + 8) })
    (by rw [writeBytes_ok (by omega), hl]; rfl)]
  refine ⟨_, rfl, ⟨?_, ?_⟩, ⟨rfl, fun w => w⟩⟩
  · rw [List.length_append, hlo, hl]; simp; omega
  · rw [List.length_append, hlo, hl]; rfl

theorem cudaRepeat_ok (k : Nat) {p : CudaP} (h8 : 1 ≤ p.out) (hfit : 8 * p.out + 8 * k ≤ p.buf.length) :
    ∃ p', cudaRepeat k p = .ok () p' ∧
      COut p p' (p.outp ++ (List.replicate k (p.outp.drop (p.outp.length - 8))).flatten) ∧ CIn p p' := by
  induction k generalizing p with
  | zero => exact ⟨p, rfl, by simpa using COut.same (by omega) ⟨rfl, rfl⟩, ⟨rfl, fun w => w⟩⟩
  | succ k ih =>
    have hlo : p.outp.length = 8 * p.out := by unfold CudaP.outp; simp; omega
    rw [cudaRepeat]
    rw [M.access_bind_some
      (g := fun p : CudaP => if p.out = 0 then none else readBytes p.buf (8 * (p.out - 1)) 8)
      (a := (p.buf.drop (8 * (p.out - 1))).take 8)
      (by rw [if_neg (by omega), readBytes_ok (by omega)])]
    have hx : (p.buf.drop (8 * (p.out - 1))).take 8 = p.outp.drop (p.outp.length - 8) := by
      rw [hlo]
      unfold CudaP.outp
      rw [List.drop_take]
      congr 1
      · omega
      · congr 1; omega
    rw [hx]
    have hl8 : (p.outp.drop (p.outp.length - 8)).length = 8 := by rw [List.length_drop]; omega
    obtain ⟨p1, h1, ho1, hi1⟩ := cudaPut_ok (p := p) hl8 (by omega)
    have hlen1 := ho1.len
    rw [List.length_append, hl8, hlo] at hlen1
    have hb1 := ho1.length (by rw [List.length_append]; omega)
    obtain ⟨p2, h2, ho2, hi2⟩ := ih (p := p1) (by omega) (by omega)
    rw [M.bind_ok h1]
    refine ⟨p2, h2, ?_, hi1.trans hi2⟩
    have := ho1.trans ho2 (by rw [ho1.outp]; simp)
    rw [ho1.outp, drop_last8 _ (by omega) _ rfl, List.append_assoc] at this
    rw [List.replicate_succ, List.flatten_cons]
    exact this

/-! ## Iterations -/

theorem cudaIter_end {p : CudaP} (hw : WinOk p.buffer p.bits) {R : List Bool}
    (hr : p.rest = bitsOf 5 0x1e ++ R) : ∃ p', cudaIter p = .ok true p' ∧ CSame p p' := by
  obtain ⟨p1, h1, hs, -, -⟩ := cudaReadBits_spec (n := 5) (x := 0x1e) (by omega) (by omega) hw hr
  refine ⟨p1, ?_, hs⟩
  unfold cudaIter
  rw [M.bind_ok h1]
  rfl

theorem cudaIter_op {p : CudaP} (hw : WinOk p.buffer p.bits) (hol : 8 * p.out ≤ p.buf.length) {op : Op}
    (hv : op.Valid) (hsh : op.isShort = false) {R : List Bool} (hr : p.rest = op.bits ++ R) {o : List Byte}
    (hst : OpStep p.outp op o) (hfit : o.length ≤ p.buf.length) :
    ∃ p', cudaIter p = .ok false p' ∧ COut p p' o ∧ p'.rest = R ∧ WinOk p'.buffer p'.bits := by
  have hlo : p.outp.length = 8 * p.out := by unfold CudaP.outp; simp; omega
  cases hst with
  | @rep n h8 =>
    have hn : n < 64 := hv
    simp only [Op.bits, List.append_assoc] at hr
    obtain ⟨p1, h1, hs1, hr1, hw1⟩ := cudaReadBits_spec (n := 5) (x := 0x1b) (by omega) (by omega) hw hr
    obtain ⟨p2, h2, hs2, hr2, hw2⟩ := cudaReadBits_spec (n := 6) (x := n) (by omega) (by omega) hw1 hr1
    have hs := hs1.trans hs2
    rw [List.length_append, flatten_len8 _ h8, hlo] at hfit
    obtain ⟨p3, h3, ho3, hi3⟩ := cudaRepeat_ok (n + 1) (p := p2) (by rw [hs.out]; omega)
      (by rw [hs.out, hs.buf]; omega)
    refine ⟨p3, ?_, ?_, by rw [hi3.rest, hr2], hi3.win hw2⟩
    · unfold cudaIter
      rw [M.bind_ok h1]
      simp only [BitVec.toNat_ofNat, show 0x1b % 2 ^ 64 = 0x1b from rfl, if_true]
      rw [M.bind_ok h2, BitVec.toNat_ofNat, Nat.mod_eq_of_lt (by omega), M.bind_ok h3]
      rfl
    · have := (COut.same hol hs).trans ho3 (by rw [hs.outp]; simp)
      rw [hs.outp] at this
      exact this
  | zeros =>
    obtain ⟨p1, h1, hs, hr1, hw1⟩ := cudaReadBits_spec (n := 5) (x := 0x1c) (by omega) (by omega) hw hr
    rw [List.length_append, hlo, List.length_replicate] at hfit
    obtain ⟨p2, h2, ho2, hi2⟩ := cudaPut_ok (p := p1) (bs := List.replicate 8 0#8) (by simp)
      (by rw [hs.out, hs.buf]; exact hfit)
    refine ⟨p2, ?_, ?_, by rw [hi2.rest, hr1], hi2.win hw1⟩
    · unfold cudaIter
      rw [M.bind_ok h1]
      simp only [BitVec.toNat_ofNat, show 0x1c % 2 ^ 64 = 0x1c from rfl, if_true,
        show ¬ (0x1c = 0x1b) by omega, if_false]
      rw [M.bind_ok h2]
      rfl
    · have := (COut.same hol hs).trans ho2 (by rw [hs.outp]; simp)
      rw [hs.outp] at this
      exact this
  | short => cases hsh
  | @template code args _ hrun =>
    obtain ⟨ht, hva⟩ := hv
    obtain ⟨hc, -, h8, -⟩ := templates_ok code _ ht
    have hlen := ArgsRun.length_eq hrun
    have h8' : actionsSize (args.map Arg.action) = 8 := h8
    rw [h8'] at hlen
    obtain ⟨row, hrow, hcrow⟩ := cudaRow_ok ht
    simp only [Op.bits, List.append_assoc] at hr
    obtain ⟨p1, h1, hs1, hr1, hw1⟩ := cudaReadBits_spec (n := 5) (x := code) (by omega) (by omega) hw hr
    obtain ⟨p2, l, bs', h2, hs2, hr2, hw2, ha2, ho⟩ := cudaFields_spec hcrow hw1
      (by rw [hs1.out, hs1.buf]; exact hol) rfl hva hr1 Acc.nil (by simp; omega)
      (by rw [hs1.outp, List.append_nil]; exact hrun)
    rw [hs1.outp] at ho
    have hs := hs1.trans hs2
    have hl8 : bs'.length = 8 := by rw [ho, List.length_append] at hlen; omega
    obtain ⟨p3, h3, ho3, hi3⟩ := cudaPut_ok (p := p2) hl8 (by rw [hs.out, hs.buf]; omega)
    refine ⟨p3, ?_, ?_, by rw [hi3.rest, hr2], hi3.win hw2⟩
    · unfold cudaIter
      rw [M.bind_ok h1]
      have hcm : (BitVec.ofNat 64 code).toNat = code := by
        rw [BitVec.toNat_ofNat, Nat.mod_eq_of_lt (by omega)]
      rw [hcm, if_neg (by omega), if_neg (by omega), if_neg (by omega),
        M.access_bind_some (g := fun _ : CudaP => cudaTemplates[code]?) hrow]
      rw [show (0#64, 0) = (0#64, 8 * ([] : List Byte).length) from rfl, M.bind_ok h2]
      have hb : wordBytes64 .little (swap64 l.1) = bs' := ha2.bytes hl8 .little
      rw [hb, M.bind_ok h3]
      rfl
    · have := (COut.same hol hs).trans ho3 (by rw [hs.outp]; simp)
      rw [hs.outp, ← ho] at this
      exact this

theorem cudaLoop_ok {ops : List Op} (hval : ∀ op ∈ ops, op.Valid) (hsh : ∀ op ∈ ops, op.isShort = false)
    {p : CudaP} (hw : WinOk p.buffer p.bits) (hol : 8 * p.out ≤ p.buf.length) {R : List Bool}
    (hr : p.rest = ops.flatMap Op.bits ++ (bitsOf 5 0x1e ++ R)) {data : List Byte}
    (hrun : Run p.outp ops data) (hfit : data.length ≤ p.buf.length) {fuel : Nat} (hf : ops.length < fuel) :
    ∃ p', M.doWhile cudaIter fuel p = .ok () p' ∧ COut p p' data := by
  induction ops generalizing p fuel with
  | nil =>
    cases hrun
    obtain ⟨fuel, rfl⟩ : ∃ f, fuel = f + 1 := ⟨fuel - 1, by simp at hf; omega⟩
    obtain ⟨p1, h1, hs⟩ := cudaIter_end hw (by simpa using hr)
    refine ⟨p1, ?_, COut.same hol hs⟩
    rw [M.doWhile, M.bind_ok h1]
    rfl
  | cons op ops ih =>
    cases hrun with
    | @cons _ _ o _ _ h1 h2 =>
      obtain ⟨fuel, rfl⟩ : ∃ f, fuel = f + 1 := ⟨fuel - 1, by simp at hf; omega⟩
      have hle := h2.length_le
      rw [List.flatMap_cons, List.append_assoc] at hr
      obtain ⟨p1, hi, ho1, hr1, hw1⟩ := cudaIter_op hw hol (hval op List.mem_cons_self)
        (hsh op List.mem_cons_self) hr h1 (by omega)
      have hb := ho1.length (by omega)
      have hl := ho1.len
      obtain ⟨p2, h3, ho2⟩ := ih (fun x hx => hval x (List.mem_cons_of_mem _ hx))
        (fun x hx => hsh x (List.mem_cons_of_mem _ hx)) hw1 (by omega) hr1 (by rw [ho1.outp]; exact h2)
        (by omega) (fuel := fuel) (by simp at hf; omega)
      refine ⟨p2, ?_, ho1.trans ho2 (by omega)⟩
      rw [M.doWhile, M.bind_ok hi]
      exact h3

/-- One thread. -/
theorem cudaThread_ok {inp buf data : List Byte} {ops : List Op} {R : List Bool}
    (hval : ∀ op ∈ ops, op.Valid) (hsh : ∀ op ∈ ops, op.isShort = false)
    (hr : bytesBits (inp.take (8 * (inp.length / 8))) = ops.flatMap Op.bits ++ (bitsOf 5 0x1e ++ R))
    (hrun : Run [] ops data) (hfit : data.length ≤ buf.length) :
    cudaThread inp buf = some (data ++ buf.drop data.length) := by
  have hlen : ops.length ≤ (ops.flatMap Op.bits).length := by
    clear hr hrun hsh hval
    induction ops with
    | nil => simp
    | cons op ops ih =>
      have := five_le_bits op
      rw [List.flatMap_cons, List.length_append, List.length_cons]; omega
  have hl2 := congrArg List.length hr
  rw [length_bytesBits, List.length_take, List.length_append] at hl2
  obtain ⟨p', h1, ho⟩ := cudaLoop_ok hval hsh
    (p := { inp := inp, word := 0, buf := buf, out := 0, bits := 0, buffer := 0#64 }) ⟨0, Win.zero⟩
    (by simp) (R := R) (by rw [← hr]; simp [CudaP.rest, winBits]) (by simpa [CudaP.outp] using hrun) hfit
    (fuel := 8 * inp.length + 1) (by omega)
  unfold cudaThread
  rw [h1]
  simp only [ho.buf]

/-- The stream of one thread is the beginning of the object. -/
theorem cudaThread_prefix {inp buf data : List Byte} {n : Nat} (hn : n % 8 = 0) (hle : n ≤ inp.length)
    (h : HwDecodes (inp.take n) data) (hfit : data.length ≤ buf.length) :
    cudaThread inp buf = some (data ++ buf.drop data.length) := by
  obtain ⟨ops, rest, hx, hsh, hb⟩ := h
  obtain ⟨tl, htl⟩ : ∃ tl, inp.take (8 * (inp.length / 8)) = inp.take n ++ tl := by
    refine ⟨(inp.take (8 * (inp.length / 8))).drop n, ?_⟩
    conv => lhs; rw [← List.take_append_drop n (inp.take (8 * (inp.length / 8)))]
    rw [List.take_take, Nat.min_eq_left (by omega)]
  refine cudaThread_ok hx.1 hsh (R := bitsOf 32 (crc data).toNat ++ (rest ++ bytesBits tl)) ?_ hx.2 hfit
  rw [htl, bytesBits_append, hb]
  simp only [trailer, List.append_assoc]

/-- What a thread leaves in its chunk. -/
def overwrite (x c : List Byte) : List Byte := x ++ c.drop x.length

theorem cudaChunk_ok {inp post : List Byte} {cs : List (List Byte)} (hc : ∀ x ∈ cs, x.length = 1024) {i : Nat}
    {c x : List Byte} (hi : cs[i]? = some c) (hxl : x.length ≤ 1024) {n : Nat} (hn : n % 8 = 0) (hlim : i < 2 ^ 25)
    (hle : 2048 * (i % 2 ^ 24) + n ≤ inp.length) (h : HwDecodes ((inp.drop (2048 * (i % 2 ^ 24))).take n) x) :
    cudaChunk inp (cs.flatten ++ post) i = some ((cs.set i (overwrite x c)).flatten ++ post) := by
  have hil : i < cs.length := (List.getElem?_eq_some_iff.1 hi).1
  have hcl := hc c (List.mem_of_getElem? hi)
  have hl := flatten_len hc
  have hle2 : 1024 * i + 1024 ≤ cs.flatten.length := by
    rw [hl, ← Nat.mul_succ]; exact Nat.mul_le_mul_left _ hil
  have hx := cudaThread_prefix (inp := inp.drop (2048 * (i % 2 ^ 24))) (buf := (cs.flatten ++ post).drop (1024 * i)) hn
    (by rw [List.length_drop]; omega) h (by rw [List.length_drop, List.length_append]; omega)
  unfold cudaChunk
  have e1 : 8 * (cudaChunkSize / 8 * 2 * i % 2 ^ 32) = 2048 * (i % 2 ^ 24) := by
    show 8 * (1024 / 8 * 2 * i % 2 ^ 32) = _; omega
  have e2 : 8 * (cudaChunkSize / 8 * i % 2 ^ 32) = 1024 * i := by
    show 8 * (1024 / 8 * i % 2 ^ 32) = _; omega
  simp only [e1, e2]
  rw [if_neg (by rw [List.length_append]; omega), hx, Option.map_some]
  congr 1
  have hset := set_slice (pre := []) (post := post) hc hil (overwrite x c)
  simp only [List.length_nil, Nat.zero_add, List.nil_append] at hset
  rw [← hset]
  congr 1
  unfold overwrite
  rw [List.append_assoc]
  congr 1
  have hcc : ((cs.flatten ++ post).drop (1024 * i)).take 1024 = c := by
    have := set_slice (pre := []) (post := post) hc hil c
    simp only [List.length_nil, Nat.zero_add, List.nil_append] at this
    have hsc : cs.set i c = cs := by
      apply List.ext_getElem?
      intro j
      rw [List.getElem?_set]
      split
      · subst_vars; rw [hi]
      · rfl
    rw [hsc] at this
    conv at this => rhs; rw [← List.take_append_drop (1024 * i) (cs.flatten ++ post)]
    have h2 := List.append_cancel_left this
    rw [← h2, List.take_append_of_le_length (by omega), List.take_of_length_le (by omega)]
  rw [← hcc]
  conv => lhs; rw [← List.take_append_drop 1024 ((cs.flatten ++ post).drop (1024 * i))]
  rw [List.drop_append_of_le_length (by rw [hcc, hcl]; exact hxl)]

theorem cudaLaunch_ok (inp post : List Byte) (xs : List (List Byte)) (hx : ∀ x ∈ xs, x.length ≤ 1024)
    (hlim : xs.length ≤ 2 ^ 25)
    (hin : ∀ (i : Nat) (x : List Byte), xs[i]? = some x → ∃ n, n % 8 = 0 ∧ 2048 * (i % 2 ^ 24) + n ≤ inp.length ∧
      HwDecodes ((inp.drop (2048 * (i % 2 ^ 24))).take n) x)
    (order : List Nat) (hnd : order.Nodup) (hord : ∀ i ∈ order, i < xs.length) (cs : List (List Byte))
    (hcl : cs.length = xs.length) (hc : ∀ c ∈ cs, c.length = 1024) :
    ∃ cs' : List (List Byte), cudaLaunch inp order (cs.flatten ++ post) = some (cs'.flatten ++ post) ∧
      cs'.length = cs.length ∧
      (∀ (j : Nat) (x c : List Byte), xs[j]? = some x → cs[j]? = some c →
        cs'[j]? = some (if j ∈ order then overwrite x c else c)) := by
  induction order generalizing cs with
  | nil => exact ⟨cs, rfl, rfl, by simp⟩
  | cons i order ih =>
    have hi := hord i List.mem_cons_self
    have hxi : xs[i]? = some xs[i] := List.getElem?_eq_getElem hi
    have hci : cs[i]? = some (cs[i]'(by omega)) := List.getElem?_eq_getElem _
    obtain ⟨n, hn, hle, hd⟩ := hin i _ hxi
    have hxl := hx _ (List.getElem_mem hi)
    have hcl1 := hc _ (List.getElem_mem (h := (by omega : i < cs.length)))
    have h1 := cudaChunk_ok (post := post) hc hci hxl hn (by omega) hle hd
    obtain ⟨hni, hnd⟩ := List.nodup_cons.1 hnd
    obtain ⟨cs', h2, h3, h4⟩ := ih hnd (fun j hj => hord j (List.mem_cons_of_mem _ hj))
      (cs.set i (overwrite xs[i] (cs[i]'(by omega)))) (by simpa using hcl) (by
        intro c hcm
        rcases List.mem_or_eq_of_mem_set hcm with h | h
        · exact hc c h
        · rw [h]; unfold overwrite; rw [List.length_append, List.length_drop]; omega)
    refine ⟨cs', ?_, by simpa using h3, ?_⟩
    · unfold cudaLaunch at h2 ⊢
      rw [List.foldlM_cons, h1]
      exact h2
    · intro j x c hxj hcj
      by_cases hij : j = i
      · subst hij
        rw [hxi] at hxj; rw [hci] at hcj
        cases hxj; cases hcj
        rw [h4 j _ _ hxi (by rw [List.getElem?_set_self (by omega)])]
        simp [hni]
      · rw [h4 j _ _ hxj (by rw [List.getElem?_set_ne (by omega)]; exact hcj)]
        simp [hij]

end Lib842
