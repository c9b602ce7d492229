import Verif.Proofs.SwComp
/-!
# Consequences of the characterisations of the serial codec, in the form used by the
property theorems
-/

namespace Lib842
open Spec

theorem sw842Compress_eq (e : Endian) (addr : Nat) (j : CompJunk) (x buf : List Byte) :
    ∃ b, b.length = buf.length ∧
      if paddedSize (streamBits x).length ≤ buf.length ∧ paddedSize (streamBits x).length ≤ 0xffffffff then
        sw842Compress e addr j x buf = .ret none (paddedSize (streamBits x).length) b ∧
        bytesBits (b.take (paddedSize (streamBits x).length)) = streamBits x ++
          List.replicate (8 * paddedSize (streamBits x).length - (streamBits x).length) false
      else sw842Compress e addr j x buf = .ret (some .ENOSPC) 0 b := by
  have := sw842CompressF_eq e addr 0 j x buf
  rw [Nat.zero_add] at this
  exact this

/-- What success of `sw842_compress` means. -/
theorem sw842Compress_ok {e : Endian} {addr : Nat} {j : CompJunk} {x buf : List Byte} {n : Nat}
    {b : List Byte} (h : sw842Compress e addr j x buf = .ret none n b) :
    n = paddedSize (streamBits x).length ∧ n ≤ buf.length ∧ n ≤ 0xffffffff ∧ b.length = buf.length ∧
      bytesBits (b.take n) = streamBits x ++ List.replicate (8 * n - (streamBits x).length) false := by
  obtain ⟨b', hl, hr⟩ := sw842Compress_eq e addr j x buf
  split at hr
  · rename_i hc
    obtain ⟨hr, hb⟩ := hr
    rw [h] at hr
    cases hr
    exact ⟨rfl, hc.1, hc.2, hl, hb⟩
  · rw [h] at hr; cases hr

theorem streamBits_decodes {x inp : List Byte} {R : List Bool}
    (h : bytesBits inp = streamBits x ++ R) : Decodes inp x :=
  ⟨refOps x, R, refOps_expands x, h⟩

theorem sw842Decompress_fuel (inp : List Byte) : 8 * inp.length < 5 * (8 * inp.length + 1) := by omega

theorem sw842Decompress_res (e : Endian) (addr : Nat) (inp buf : List Byte) :
    CallRes inp buf (sw842Decompress e addr inp buf) :=
  swDecompF_res e addr _ inp buf (sw842Decompress_fuel inp)

theorem sw842Decompress_of (e : Endian) (addr : Nat) (inp buf : List Byte)
    {ops : List Op} {data : List Byte} (hexp : Expands ops data) {c : BitVec 32} {R : List Bool}
    (hin : bytesBits inp = ops.flatMap Op.bits ++ (bitsOf 5 0x1e ++ (bitsOf 32 c.toNat ++ R))) :
    ∃ b, b.length = buf.length ∧ (data.length ≤ buf.length → b.take data.length = data) ∧
      sw842Decompress e addr inp buf =
        if buf.length < data.length then .ret (some .ENOSPC) 0 b
        else if c ≠ crc data then .ret (some .EINVAL) 0 b
        else if data.length > 0xffffffff then .ret (some .ENOSPC) 0 b
        else .ret none data.length b :=
  swDecompF_of e addr _ inp buf (sw842Decompress_fuel inp) hexp hin

theorem sw842Decompress_decodes (e : Endian) (addr : Nat) (inp buf : List Byte) {data : List Byte}
    (h : Decodes inp data) :
    ∃ b, b.length = buf.length ∧ (data.length ≤ buf.length → b.take data.length = data) ∧
      sw842Decompress e addr inp buf =
        if buf.length < data.length then .ret (some .ENOSPC) 0 b
        else if data.length > 0xffffffff then .ret (some .ENOSPC) 0 b
        else .ret none data.length b := by
  obtain ⟨ops, R, hexp, hin⟩ := h
  obtain ⟨b, h1, h2, h3⟩ := sw842Decompress_of e addr inp buf hexp (c := crc data) (R := R)
    (by rw [hin, trailer]; simp only [List.append_assoc])
  refine ⟨b, h1, h2, ?_⟩
  rw [h3]
  simp

theorem sw842Decompress_ok {e : Endian} {addr : Nat} {inp buf : List Byte} {n : Nat} {b : List Byte}
    (h : sw842Decompress e addr inp buf = .ret none n b) :
    Decodes inp (b.take n) ∧ (b.take n).length = n ∧ n ≤ buf.length ∧ n ≤ 0xffffffff ∧
      b.length = buf.length := by
  have hr := sw842Decompress_res e addr inp buf
  rw [h] at hr
  cases hr with
  | ok hd hl hm hb ht => rw [ht]; exact ⟨hd, rfl, hl, hm, hb⟩

/-- A stream decodes to at most one byte string. -/
theorem decodes_unique {inp d d' : List Byte} (h : Decodes inp d) (h' : Decodes inp d') : d = d' := by
  -- run the (deterministic) decompressor with enough space
  obtain ⟨ops, R, hexp, hin⟩ := h
  obtain ⟨ops', R', hexp', hin'⟩ := h'
  have hd := decompLoop_of .big (fuel := 8 * inp.length + 1) ops hexp.1
    (decompInit_inv inp (List.replicate (d.length + d'.length) 0#8))
    (R := bitsOf 32 (crc d).toNat ++ R)
    (by rw [decompInit_rest, hin, trailer]; simp only [List.append_assoc])
    (by rw [decompInit_rest]; simp; omega) hexp.2
  have hd' := decompLoop_of .big (fuel := 8 * inp.length + 1) ops' hexp'.1
    (decompInit_inv inp (List.replicate (d.length + d'.length) 0#8))
    (R := bitsOf 32 (crc d').toNat ++ R')
    (by rw [decompInit_rest, hin', trailer]; simp only [List.append_assoc])
    (by rw [decompInit_rest]; simp; omega) hexp'.2
  unfold Decides at hd hd'
  rw [decompInit_buf, List.length_replicate] at hd hd'
  rcases hd with ⟨hle, p1, h1, hi1, hl1, hr1, ho1⟩ | ⟨hlt, p1, h1⟩
  · rcases hd' with ⟨hle', p2, h2, hi2, hl2, hr2, ho2⟩ | ⟨hlt, p1, h1⟩
    · rw [h1] at h2
      cases h2
      rw [← ho1, ← ho2]
    · omega
  · omega

/-! ## Length of the stream -/

theorem streamBits_length_le (x : List Byte) :
    (streamBits x).length ≤
      69 * (x.length / 8) + (if x.length % 8 = 0 then 0 else 8 + 8 * (x.length % 8)) + 37 := by
  have h := refLoop_bits x (x.length / 8) (last := none) (rc := 0) (Tab.Rep.init x) rfl (by omega)
  rw [Nat.add_zero] at h
  unfold streamBits refOps
  rw [List.flatMap_append, List.length_append, List.length_append]
  have ht : (trailer x).length = 37 := by simp [trailer]
  rw [ht]
  have hs : ((shortOps x).flatMap Op.bits).length =
      if x.length % 8 = 0 then 0 else 8 + 8 * (x.length % 8) := by
    unfold shortOps
    split
    · rfl
    · simp [Op.bits]; omega
  omega

theorem streamBits_length_ge (x : List Byte) : 37 ≤ (streamBits x).length := by
  unfold streamBits
  simp [trailer]

/-- A run of equal blocks costs at most 11 bits per block. -/
theorem refLoop_bits_const (x : List Byte) (blk : List Byte) (k : Nat) {T : Tab} {pos rc : Nat}
    (hx : ∀ i, i < k → slice x (pos + 8 * i) 8 = blk) :
    ((refLoop x k T pos (some blk) rc).flatMap Op.bits).length ≤ 11 * (k + rc) := by
  induction k generalizing T pos rc with
  | zero =>
    rw [refLoop]
    unfold repOps
    split
    · simp
    · simp [Op.bits]; omega
  | succ k ih =>
    have h0 : slice x pos 8 = blk := by have := hx 0 (by omega); simpa using this
    have ih' := fun rc => ih (T := T.next x pos) (pos := pos + 8) (rc := rc)
      (fun i hi => by have := hx (i + 1) (by omega); rw [← this]; congr 1; omega)
    rw [refLoop]
    simp only [List.flatMap_append, List.length_append]
    unfold refStep
    simp only [h0, if_true]
    split
    · have := ih' (rc + 1)
      simp only [List.flatMap_nil, List.length_nil]; omega
    · have := ih' 0
      simp only [List.flatMap_cons, List.flatMap_nil, List.append_nil, Op.bits, List.length_append,
        length_bitsOf]
      omega

theorem slice_replicate (n o : Nat) (b : Byte) (h : o + 8 ≤ n) :
    slice (List.replicate n b) o 8 = List.replicate 8 b := by
  unfold slice
  rw [List.drop_replicate, List.take_replicate]
  congr 1; omega

theorem streamBits_zeros_le (n : Nat) (hn : n % 8 = 0) :
    (streamBits (List.replicate n 0#8)).length ≤ 11 * (n / 8) + 42 := by
  have ht : (trailer (List.replicate n 0#8)).length = 37 := by simp [trailer]
  have hlen : (List.replicate n 0#8).length = n := List.length_replicate
  unfold streamBits refOps shortOps
  rw [hlen, if_pos hn, List.append_nil, List.length_append, ht]
  cases hk : n / 8 with
  | zero => simp [refLoop, repOps]
  | succ k =>
    rw [refLoop]
    have h0 : slice (List.replicate n 0#8) 0 8 = List.replicate 8 0#8 := slice_replicate n 0 _ (by omega)
    simp only [refStep, h0, if_true, List.flatMap_append, List.length_append]
    rw [if_neg (by simp)]
    have := refLoop_bits_const (List.replicate n 0#8) (List.replicate 8 0#8) k
      (T := Tab.init.next (List.replicate n 0#8) 0) (pos := 0 + 8) (rc := 0)
      (fun i hi => slice_replicate n _ _ (by omega))
    simp only [repOps, if_true, List.nil_append, List.flatMap_cons, List.flatMap_nil, List.append_nil,
      Op.bits, length_bitsOf]
    omega

end Lib842
