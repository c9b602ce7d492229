import Verif.Model.OptComp
import Verif.Proofs.Window
import Verif.Proofs.Monad
/-!
# The bit stream writer of the optimized compressor
-/

namespace Lib842
open Spec

/-- Invariant of the stream over the initial buffer `buf0`. -/
structure BStream.Ok (buf0 : List Byte) (s : BStream) : Prop where
  win : WinOk s.buffer s.bits
  ptr : s.ptr ≤ s.endw
  endw : 8 * s.endw ≤ buf0.length
  len : s.buf.length = buf0.length
  tail : s.buf.drop (8 * s.ptr) = buf0.drop (8 * s.ptr)

/-- All bits written so far. -/
def BStream.written (s : BStream) : List Bool :=
  bytesBits (s.buf.take (8 * s.ptr)) ++ winBits s.buffer s.bits

theorem BStream.Ok.lt {buf0 s} (h : BStream.Ok buf0 s) : s.bits < 64 := by
  obtain ⟨a, h⟩ := h.win; exact h.lt

theorem BStream.Ok.length_written {buf0 s} (h : BStream.Ok buf0 s) :
    s.written.length = 64 * s.ptr + s.bits := by
  have h1 := h.ptr
  have h2 := h.endw
  have h3 := h.len
  unfold BStream.written
  rw [List.length_append, length_winBits, length_bytesBits, List.length_take]
  omega

theorem streamWriteWord_full {e : Endian} {s : BStream} (h : s.ptr = s.endw) (v : BitVec 64) :
    streamWriteWord e v s = .err .ENOSPC s := by
  unfold streamWriteWord
  rw [M.get_bind_apply]
  simp only [h, if_true]
  rfl

/-- A word is written. -/
theorem streamWriteWord_ok {e : Endian} {buf0 : List Byte} {s : BStream} (hp : s.ptr < s.endw)
    (he : 8 * s.endw ≤ buf0.length) (hl : s.buf.length = buf0.length)
    (ht : s.buf.drop (8 * s.ptr) = buf0.drop (8 * s.ptr)) (v : BitVec 64) :
    ∃ b, streamWriteWord e v s = .ok () { s with buf := b, ptr := s.ptr + 1 } ∧
      b.length = buf0.length ∧ b.drop (8 * (s.ptr + 1)) = buf0.drop (8 * (s.ptr + 1)) ∧
      bytesBits (b.take (8 * (s.ptr + 1))) = bytesBits (s.buf.take (8 * s.ptr)) ++ bitsOf 64 v.toNat := by
  have hw : ((wordBytes64 e (swapBe64 e v)).length) = 8 := length_wordBytes64 ..
  refine ⟨s.buf.take (8 * s.ptr) ++ wordBytes64 e (swapBe64 e v) ++ s.buf.drop (8 * s.ptr + 8), ?_, ?_, ?_, ?_⟩
  · unfold streamWriteWord
    rw [M.get_bind_apply, if_neg (by omega)]
    let b := s.buf.take (8 * s.ptr) ++ wordBytes64 e (swapBe64 e v) ++ s.buf.drop (8 * s.ptr + 8)
    rw [M.update_bind_some (s' := { s with buf := b })]
    · rfl
    · unfold store64 writeBytes
      rw [if_pos (by rw [hw]; omega), hw]; rfl
  · simp [hw]; omega
  · rw [List.append_assoc, List.drop_append, List.length_take, Nat.min_eq_left (by omega),
      List.drop_of_length_le (by simp), List.nil_append, List.drop_append, hw,
      List.drop_of_length_le (by rw [hw]; omega), List.nil_append,
      show 8 * (s.ptr + 1) - 8 * s.ptr - 8 = 0 by omega, List.drop_zero]
    have := congrArg (List.drop 8) ht
    rwa [List.drop_drop, List.drop_drop] at this
  · rw [List.take_append_of_le_length (by simp [hw]; omega), List.take_of_length_le (by simp [hw]; omega),
      bytesBits_append]
    congr 1
    rw [wordBytes64_swap, bytesBits_wordBytes64]

/-- Arithmetic of `stream_write_bits`: no word is completed. -/
theorem win_put {b : BitVec 64} {bits n : Nat} (h : WinOk b bits) (hn1 : 1 ≤ n) (hn : bits + n < 64)
    {v : BitVec 64} (hv : v.toNat < 2 ^ n) :
    WinOk (b ||| (v <<< (64 - n)) >>> bits) (bits + n) ∧
      winBits (b ||| (v <<< (64 - n)) >>> bits) (bits + n) = winBits b bits ++ bitsOf n v.toNat := by
  obtain ⟨a, h⟩ := h
  have hval : (b ||| (v <<< (64 - n)) >>> bits).toNat = (a * 2 ^ n + v.toNat) * 2 ^ (64 - (bits + n)) := by
    have h1 : (v <<< (64 - n)).toNat = v.toNat * 2 ^ (64 - n) := by
      rw [BitVec.toNat_shiftLeft, Nat.shiftLeft_eq, Nat.mod_eq_of_lt]
      calc v.toNat * 2 ^ (64 - n) < 2 ^ n * 2 ^ (64 - n) := Nat.mul_lt_mul_of_pos_right hv (Nat.two_pow_pos _)
        _ = 2 ^ 64 := by rw [← Nat.pow_add]; congr 1; omega
    have h2 : ((v <<< (64 - n)) >>> bits).toNat = v.toNat * 2 ^ (64 - (bits + n)) := by
      rw [BitVec.toNat_ushiftRight, h1, Nat.shiftRight_eq_div_pow,
        show 64 - n = (64 - (bits + n)) + bits by omega, Nat.pow_add, ← Nat.mul_assoc,
        Nat.mul_div_cancel _ (Nat.two_pow_pos _)]
    have h3 : v.toNat * 2 ^ (64 - (bits + n)) < 2 ^ (64 - bits) := by
      calc v.toNat * 2 ^ (64 - (bits + n)) < 2 ^ n * 2 ^ (64 - (bits + n)) :=
            Nat.mul_lt_mul_of_pos_right hv (Nat.two_pow_pos _)
        _ = 2 ^ (64 - bits) := by rw [← Nat.pow_add]; congr 1; omega
    rw [BitVec.toNat_or, h2, h.val, Nat.mul_comm a, ← Nat.two_pow_add_eq_or_of_lt h3,
      Nat.add_mul, Nat.mul_comm _ a, Nat.mul_assoc, ← Nat.pow_add]
    congr 3; omega
  have hw : Win (b ||| (v <<< (64 - n)) >>> bits) (bits + n) (a * 2 ^ n + v.toNat) := by
    refine ⟨hn, ?_, hval⟩
    rw [Nat.pow_add]
    calc a * 2 ^ n + v.toNat < a * 2 ^ n + 2 ^ n := by omega
      _ = (a + 1) * 2 ^ n := by rw [Nat.succ_mul]
      _ ≤ 2 ^ bits * 2 ^ n := Nat.mul_le_mul_right _ h.a_lt
  refine ⟨⟨_, hw⟩, ?_⟩
  rw [hw.bits, h.bits, bitsOf_append]
  congr 1
  · rw [Nat.shiftRight_eq_div_pow, Nat.mul_comm, Nat.mul_add_div (Nat.two_pow_pos _),
      Nat.div_eq_of_lt hv, Nat.add_zero]
  · rw [← bitsOf_mod, Nat.mul_comm, Nat.mul_add_mod, bitsOf_mod]

/-- Arithmetic of `stream_write_bits`: a word is completed. -/
theorem win_put_full {b : BitVec 64} {bits n : Nat} (h : WinOk b bits) (hn : n ≤ 64) (hf : 64 ≤ bits + n)
    {v : BitVec 64} (hv : v.toNat < 2 ^ n) :
    WinOk ((v <<< (64 - n)) <<< 1 <<< (n - 1 - (bits + n - 64))) (bits + n - 64) ∧
      bitsOf 64 (b ||| (v <<< (64 - n)) >>> bits).toNat ++
        winBits ((v <<< (64 - n)) <<< 1 <<< (n - 1 - (bits + n - 64))) (bits + n - 64) =
      winBits b bits ++ bitsOf n v.toNat := by
  obtain ⟨a, h⟩ := h
  have hlt := h.lt
  obtain ⟨r, rfl⟩ : ∃ r, n = 64 - bits + r := ⟨n - (64 - bits), by omega⟩
  generalize hn' : 64 - bits + r = n at *
  have hr : bits + n - 64 = r := by omega
  rw [hr]
  have h1 : (v <<< (64 - n)).toNat = v.toNat * 2 ^ (64 - n) := by
    rw [BitVec.toNat_shiftLeft, Nat.shiftLeft_eq, Nat.mod_eq_of_lt]
    calc v.toNat * 2 ^ (64 - n) < 2 ^ n * 2 ^ (64 - n) := Nat.mul_lt_mul_of_pos_right hv (Nat.two_pow_pos _)
      _ = 2 ^ 64 := by rw [← Nat.pow_add]; congr 1; omega
  have h2 : ((v <<< (64 - n)) >>> bits).toNat = v.toNat >>> r := by
    rw [BitVec.toNat_ushiftRight, h1, Nat.shiftRight_eq_div_pow, Nat.shiftRight_eq_div_pow,
      show bits = r + (64 - n) by omega, Nat.pow_add, Nat.mul_div_mul_right _ _ (Nat.two_pow_pos _)]
  have h3 : v.toNat >>> r < 2 ^ (64 - bits) := by
    rw [Nat.shiftRight_eq_div_pow, Nat.div_lt_iff_lt_mul (Nat.two_pow_pos _), ← Nat.pow_add, hn']
    exact hv
  have h4 : (b ||| (v <<< (64 - n)) >>> bits).toNat = a * 2 ^ (64 - bits) + v.toNat >>> r := by
    rw [BitVec.toNat_or, h2, h.val, Nat.mul_comm a, Nat.two_pow_add_eq_or_of_lt h3]
  have hw : Win ((v <<< (64 - n)) <<< 1 <<< (n - 1 - r)) r (v.toNat % 2 ^ r) := by
    refine ⟨by omega, Nat.mod_lt _ (Nat.two_pow_pos _), ?_⟩
    rw [← BitVec.shiftLeft_add, show 1 + (n - 1 - r) = n - r by omega, BitVec.toNat_shiftLeft,
      Nat.shiftLeft_eq, h1]
    have := shl_mod v.toNat r (n - r) (by omega)
    rw [show r + (n - r) = n by omega] at this
    exact this
  refine ⟨⟨_, hw⟩, ?_⟩
  have hc : bitsOf n v.toNat = bitsOf (64 - bits) (v.toNat >>> r) ++ bitsOf r v.toNat := by
    rw [← bitsOf_append, hn']
  have hd : bitsOf 64 (a * 2 ^ (64 - bits) + v.toNat >>> r) =
      bitsOf bits a ++ bitsOf (64 - bits) (v.toNat >>> r) := by
    have := bitsOf_append bits (64 - bits) (a * 2 ^ (64 - bits) + v.toNat >>> r)
    rw [show bits + (64 - bits) = 64 by omega] at this
    rw [this]
    congr 1
    · rw [Nat.shiftRight_eq_div_pow (_ + _), Nat.mul_comm, Nat.mul_add_div (Nat.two_pow_pos _),
        Nat.div_eq_of_lt h3, Nat.add_zero]
    · rw [← bitsOf_mod, Nat.mul_comm, Nat.mul_add_mod, bitsOf_mod]
  rw [hw.bits, h.bits, h4, hd, bitsOf_mod, hc, List.append_assoc]

/-- `stream_write_bits` appends the bits if the words they complete fit. -/
theorem streamWriteBits_ok {e : Endian} {buf0 : List Byte} {s : BStream} (hs : s.Ok buf0) {v : BitVec 64}
    {n : Nat} (hn1 : 1 ≤ n) (hn : n ≤ 64) (hv : v.toNat < 2 ^ n)
    (hfit : (s.written.length + n) / 64 ≤ s.endw) :
    ∃ s', streamWriteBits e v n s = .ok () s' ∧ s'.Ok buf0 ∧ s'.endw = s.endw ∧
      s'.written = s.written ++ bitsOf n v.toNat := by
  have hlt := hs.lt
  rw [hs.length_written] at hfit
  unfold streamWriteBits
  rw [M.access_bind_some (g := fun _ => cshl v (64 - n)) (a := v <<< (64 - n)) (cshl_some (by omega) (by omega)), M.get_bind_apply,
    M.access_bind_some (g := fun _ => cshr (v <<< (64 - n)) s.bits) (a := v <<< (64 - n) >>> s.bits)
      (cshr_some (by omega) (by omega)),
    M.modify_bind_apply, M.get_bind_apply]
  simp only
  rw [Nat.mod_eq_of_lt (by omega : s.bits + n < 2 ^ 8)]
  by_cases hc : s.bits + n ≥ 64
  · rw [if_pos hc, M.modify_bind_apply, M.get_bind_apply]
    simp only
    obtain ⟨b, hb, hbl, hbt, hbb⟩ := streamWriteWord_ok (e := e) (buf0 := buf0)
      (s := { s with buffer := s.buffer ||| v <<< (64 - n) >>> s.bits, bits := s.bits + n - 64 })
      (by show s.ptr < s.endw; omega) hs.endw hs.len hs.tail (s.buffer ||| v <<< (64 - n) >>> s.bits)
    rw [M.bind_ok hb, M.access_bind_some (g := fun _ => cshl (v <<< (64 - n) <<< 1) (n - 1 - (s.bits + n - 64 : Nat)))
      (a := v <<< (64 - n) <<< 1 <<< (n - 1 - (s.bits + n - 64)))
      (cshl_some (by omega) (by omega)), M.modify_apply]
    obtain ⟨hw1, hw2⟩ := win_put_full hs.win hn hc hv
    refine ⟨_, rfl, ⟨hw1, ?_, hs.endw, hbl, hbt⟩, rfl, ?_⟩
    · show s.ptr + 1 ≤ s.endw; omega
    · unfold BStream.written
      simp only at hbb ⊢
      rw [hbb, List.append_assoc, hw2, List.append_assoc]
  · rw [if_neg hc]
    obtain ⟨hw1, hw2⟩ := win_put hs.win hn1 (by omega) hv
    refine ⟨_, rfl, ⟨hw1, hs.ptr, hs.endw, hs.len, hs.tail⟩, rfl, ?_⟩
    unfold BStream.written
    simp only
    rw [hw2, List.append_assoc]

/-- Otherwise it throws. -/
theorem streamWriteBits_full {e : Endian} {buf0 : List Byte} {s : BStream} (hs : s.Ok buf0) {v : BitVec 64}
    {n : Nat} (hn1 : 1 ≤ n) (hn : n ≤ 64) (hfit : s.endw < (s.written.length + n) / 64) :
    ∃ s', streamWriteBits e v n s = .err .ENOSPC s' ∧ s'.buf.length = buf0.length := by
  have hlt := hs.lt
  have hp := hs.ptr
  rw [hs.length_written] at hfit
  unfold streamWriteBits
  rw [M.access_bind_some (g := fun _ => cshl v (64 - n)) (a := v <<< (64 - n)) (cshl_some (by omega) (by omega)), M.get_bind_apply,
    M.access_bind_some (g := fun _ => cshr (v <<< (64 - n)) s.bits) (a := v <<< (64 - n) >>> s.bits)
      (cshr_some (by omega) (by omega)),
    M.modify_bind_apply, M.get_bind_apply]
  simp only
  rw [Nat.mod_eq_of_lt (by omega : s.bits + n < 2 ^ 8), if_pos (by omega), M.modify_bind_apply,
    M.get_bind_apply]
  refine ⟨_, M.bind_err (streamWriteWord_full ?_ _), hs.len⟩
  show s.ptr = s.endw
  omega

/-! ## Sequences of writes -/

/-- The writes `ws`, in order. -/
def writeAll (e : Endian) : List (BitVec 64 × Nat) → M BStream Unit
  | [] => pure ()
  | (v, n) :: ws => do
    streamWriteBits e v n
    writeAll e ws

theorem writeAll_append (e : Endian) (a b : List (BitVec 64 × Nat)) :
    writeAll e (a ++ b) = (writeAll e a >>= fun _ => writeAll e b) := by
  induction a with
  | nil => rfl
  | cons x a ih =>
    obtain ⟨v, n⟩ := x
    rw [List.cons_append, writeAll, writeAll, ih, M.bind_assoc']

/-- The bits of a list of writes. -/
def writeBitsOf (ws : List (BitVec 64 × Nat)) : List Bool := ws.flatMap fun w => bitsOf w.2 w.1.toNat

/-- Well-formed writes. -/
def WritesOk (ws : List (BitVec 64 × Nat)) : Prop := ∀ w ∈ ws, 1 ≤ w.2 ∧ w.2 ≤ 64 ∧ w.1.toNat < 2 ^ w.2

theorem writeAll_ok {e : Endian} {buf0 : List Byte} {ws : List (BitVec 64 × Nat)} (hw : WritesOk ws)
    {s : BStream} (hs : s.Ok buf0) (hfit : (s.written.length + (writeBitsOf ws).length) / 64 ≤ s.endw) :
    ∃ s', writeAll e ws s = .ok () s' ∧ s'.Ok buf0 ∧ s'.endw = s.endw ∧
      s'.written = s.written ++ writeBitsOf ws := by
  induction ws generalizing s with
  | nil => exact ⟨s, rfl, hs, rfl, by simp [writeBitsOf]⟩
  | cons w ws ih =>
    obtain ⟨v, n⟩ := w
    obtain ⟨h1, h2, h3⟩ := hw _ (List.mem_cons_self ..)
    simp only at h1 h2 h3
    simp only [writeBitsOf, List.flatMap_cons, List.length_append, length_bitsOf] at hfit
    obtain ⟨s1, he, hok, hend, hwr⟩ := streamWriteBits_ok (e := e) hs h1 h2 h3 (by omega)
    obtain ⟨s2, he2, hok2, hend2, hwr2⟩ := ih (fun w h => hw w (List.mem_cons_of_mem _ h)) hok (by
      rw [hwr, hend, List.length_append, length_bitsOf]
      unfold writeBitsOf
      omega)
    refine ⟨s2, ?_, hok2, hend2.trans hend, ?_⟩
    · rw [writeAll, M.bind_ok he, he2]
    · rw [hwr2, hwr, List.append_assoc]; rfl

theorem writeAll_full {e : Endian} {buf0 : List Byte} {ws : List (BitVec 64 × Nat)} (hw : WritesOk ws)
    {s : BStream} (hs : s.Ok buf0) (hfit : s.endw < (s.written.length + (writeBitsOf ws).length) / 64) :
    ∃ s', writeAll e ws s = .err .ENOSPC s' ∧ s'.buf.length = buf0.length := by
  induction ws generalizing s with
  | nil =>
    have := hs.length_written
    have := hs.ptr
    have := hs.lt
    simp only [writeBitsOf, List.flatMap_nil, List.length_nil] at hfit
    omega
  | cons w ws ih =>
    obtain ⟨v, n⟩ := w
    obtain ⟨h1, h2, h3⟩ := hw _ (List.mem_cons_self ..)
    simp only at h1 h2 h3
    simp only [writeBitsOf, List.flatMap_cons, List.length_append, length_bitsOf] at hfit
    rw [writeAll]
    by_cases hc : (s.written.length + n) / 64 ≤ s.endw
    · obtain ⟨s1, he, hok, hend, hwr⟩ := streamWriteBits_ok (e := e) hs h1 h2 h3 hc
      rw [M.bind_ok he]
      refine ih (fun w h => hw w (List.mem_cons_of_mem _ h)) hok ?_
      rw [hwr, hend, List.length_append, length_bitsOf]
      unfold writeBitsOf
      omega
    · obtain ⟨s', he, hl⟩ := streamWriteBits_full (e := e) (v := v) hs h1 h2 (by omega)
      exact ⟨s', M.bind_err he, hl⟩

/-! ## Flushing -/

theorem winBits_pad {b : BitVec 64} {bits : Nat} (h : WinOk b bits) :
    bitsOf 64 b.toNat = winBits b bits ++ List.replicate (64 - bits) false := by
  obtain ⟨a, h⟩ := h
  have hlt := h.lt
  rw [h.bits, h.val]
  have := bitsOf_append bits (64 - bits) (a * 2 ^ (64 - bits))
  rw [show bits + (64 - bits) = 64 by omega] at this
  rw [this, Nat.shiftRight_eq_div_pow, Nat.mul_div_cancel _ (Nat.two_pow_pos _)]
  congr 1
  rw [← bitsOf_mod, Nat.mul_mod_left, bitsOf_zero_val]

theorem streamFlush_ok {e : Endian} {buf0 : List Byte} {s : BStream} (hs : s.Ok buf0)
    (hfit : (s.written.length + 63) / 64 ≤ s.endw) :
    ∃ s', streamFlush e s = .ok () s' ∧ s'.buf.length = buf0.length ∧
      s'.ptr = (s.written.length + 63) / 64 ∧
      s'.buf.drop (8 * s'.ptr) = buf0.drop (8 * s'.ptr) ∧
      bytesBits (s'.buf.take (8 * s'.ptr)) =
        s.written ++ List.replicate (64 * s'.ptr - s.written.length) false := by
  have hlt := hs.lt
  have hlw := hs.length_written
  unfold streamFlush
  rw [M.get_bind_apply]
  by_cases hz : s.bits = 0
  · rw [if_neg (by rw [hz]; simp)]
    have hp : (s.written.length + 63) / 64 = s.ptr := by omega
    refine ⟨s, rfl, hs.len, hp.symm, hs.tail, ?_⟩
    rw [show 64 * s.ptr - s.written.length = 0 by omega, List.replicate_zero, List.append_nil]
    have : winBits s.buffer s.bits = [] := by
      apply List.eq_nil_of_length_eq_zero; rw [length_winBits, hz]
    unfold BStream.written
    rw [this, List.append_nil]
  · rw [if_pos (by omega)]
    unfold streamPad
    rw [M.modify_bind_apply]
    have hb : (s.bits + (64 - s.bits) % 64) % 2 ^ 8 = 64 := by omega
    rw [hb, streamPadLoop, M.get_bind_apply, if_pos (by show (64 : Nat) ≤ 64; omega)]
    obtain ⟨b, hb, hbl, hbt, hbb⟩ := streamWriteWord_ok (e := e) (buf0 := buf0)
      (s := { s with bits := 64 })
      (by show s.ptr < s.endw; omega) hs.endw hs.len hs.tail s.buffer
    rw [M.bind_ok hb, M.modify_bind_apply, streamPadLoop, M.get_bind_apply, if_neg (by simp)]
    have hp : (s.written.length + 63) / 64 = s.ptr + 1 := by omega
    refine ⟨_, rfl, hbl, hp.symm, hbt, ?_⟩
    simp only at hbb ⊢
    rw [hbb, winBits_pad hs.win]
    unfold BStream.written
    rw [List.append_assoc]
    congr 3
    unfold BStream.written at hlw
    omega

theorem streamFlush_full {e : Endian} {buf0 : List Byte} {s : BStream} (hs : s.Ok buf0)
    (hfit : s.endw < (s.written.length + 63) / 64) :
    ∃ s', streamFlush e s = .err .ENOSPC s' ∧ s'.buf.length = buf0.length := by
  have hlt := hs.lt
  have hlw := hs.length_written
  have hp := hs.ptr
  unfold streamFlush
  rw [M.get_bind_apply]
  rw [if_pos (by omega)]
  unfold streamPad
  rw [M.modify_bind_apply]
  have hb : (s.bits + (64 - s.bits) % 64) % 2 ^ 8 = 64 := by omega
  rw [hb, streamPadLoop, M.get_bind_apply, if_pos (by show (64 : Nat) ≤ 64; omega)]
  refine ⟨_, M.bind_err (streamWriteWord_full ?_ _), hs.len⟩
  show s.ptr = s.endw
  omega

theorem streamOpen_ok (buf : List Byte) : (streamOpen buf).Ok buf := by
  refine ⟨⟨0, Win.zero⟩, by simp [streamOpen], ?_, rfl, by simp [streamOpen]⟩
  simp only [streamOpen]; omega

theorem streamOpen_written (buf : List Byte) : (streamOpen buf).written = [] := by
  simp [streamOpen, BStream.written, winBits, bitsOf]

end Lib842
