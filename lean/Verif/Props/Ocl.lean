import Verif.Proofs.OclKernel
import Verif.Props.Ring
/-!
# Property theorems for the OpenCL decompressor (C22, C43-C46, C55-C57)
-/

namespace Lib842.Props
open Spec

/-! ## C43: the OpenCL decoder and the format -/

/-- C43: every hardware stream is decoded to the data it denotes; nothing after the decoded
data is touched. -/
theorem C43_ocl_accepts_format (e : Endian) (inp buf d : List Byte) (ilen olen : Nat) (h8 : ilen % 8 = 0)
    (hin : ilen ≤ inp.length) (hdec : HwDecodes (inp.take ilen) d) (hd : d.length ≤ olen)
    (hb : d.length ≤ buf.length) :
    oclCore e (some inp) 0 ilen buf olen = .ret none d.length (d ++ buf.drop d.length) := by
  obtain ⟨ops, rest, h1, h2, h3, h4⟩ := opsDecode_of_hw hdec
  obtain ⟨b, h5, h6, h7, h8'⟩ := oclCore_of e (some inp) 0 ilen buf olen
    (by simp only [Option.getD_some]; omega) h1 h2 h3
    (by
      rw [Option.getD_some, Nat.mul_zero, List.drop_zero, show 8 * (ilen / 8) = ilen by omega]
      exact h4) hd hb (.inl (by simp))
  rw [h5, ← List.take_append_drop d.length b, h7, h8']

example : oclCore .big (some exOut8) 0 24 (List.replicate 33 0xaa) 32 = .ret none 32 (exIn8 ++ [0xaa]) := by
  have h : optsw842Decompress .little 0 0 exOut8 (List.replicate 33 0xaa) = .ret none 32 (exIn8 ++ [0xaa]) :=
    ex_opt_decompress
  have hd := (C14_opt_success_is_decoding .little 0 0 exOut8 _ 32 _ (by decide) h).1
  have hd : HwDecodes (exOut8.take 24) exIn8 := hd
  exact C43_ocl_accepts_format .big exOut8 (List.replicate 33 0xaa) exIn8 24 32 rfl (by decide) hd (by decide) (by decide)

/-- C43: whatever the decoder accepts, the output is what the ops of the stream denote, the
end marker and 32 more bits are there, and nothing after the output is touched. -/
theorem C43_ocl_success_is_decoding (e : Endian) (inp buf : List Byte) (ilen olen n : Nat) (b : List Byte)
    (h8 : ilen % 8 = 0) (hin : ilen ≤ inp.length) (hout : olen ≤ buf.length)
    (h : oclCore e (some inp) 0 ilen buf olen = .ret none n b) :
    n ≤ olen ∧ (b.take n).length = n ∧ b.length = buf.length ∧ b.drop n = buf.drop n ∧
    ∃ ops crc rest, Expands ops (b.take n) ∧ (∀ op ∈ ops, op.isShort = false) ∧
      bytesBits (inp.take ilen) = ops.flatMap Op.bits ++ (bitsOf 5 0x1e ++ (bitsOf 32 crc ++ rest)) := by
  have hr := oclCore_res e inp 0 ilen buf olen (by omega) hout
  rw [h, Nat.mul_zero, List.drop_zero, show 8 * (ilen / 8) = ilen by omega] at hr
  cases hr with
  | ok hd hle hl ht hdr =>
    obtain ⟨ops, rest, h1, h2, h3, h4⟩ := hd
    refine ⟨hle, by rw [ht], hl, hdr, ops, bitsVal (rest.take 32), rest.drop 32, by rw [ht]; exact h1, h2, ?_⟩
    rw [h4]
    congr 2
    have : bitsOf 32 (bitsVal (rest.take 32)) = rest.take 32 := by
      have hl : (rest.take 32).length = 32 := by simp; omega
      have := bitsOf_bitsVal (rest.take 32)
      rwa [hl] at this
    rw [this, List.take_append_drop]

/-- C43: the decoder and `optsw842_decompress` agree on everything the latter accepts. -/
theorem C43_ocl_agrees_with_opt (e e' : Endian) (ain aout : Nat) (inp buf buf' : List Byte) (n : Nat) (b : List Byte)
    (hal : ain % 8 = 0 ∧ aout % 8 = 0) (h8 : inp.length % 8 = 0)
    (h : optsw842Decompress e ain aout inp buf = .ret none n b) (hb : n ≤ buf'.length) :
    oclCore e' (some inp) 0 inp.length buf' buf'.length = .ret none n (b.take n ++ buf'.drop n) := by
  obtain ⟨h1, h2⟩ := C14_opt_success_is_decoding e ain aout inp buf n b hal h
  rw [show 8 * (inp.length / 8) = inp.length by omega] at h1
  have := C43_ocl_accepts_format e' inp buf' (b.take n) inp.length buf'.length h8 (le_refl _) h1 (by omega) (by omega)
  rwa [h2] at this

/-- C43: a launch over any number of compressed chunks restores all of them and reports no
error, whatever the order of the work items and whatever the shuffle map. -/
theorem C43_ocl_launch (e : Endian) (c stride inOff outOff : Nat) (inp buf : List Byte) (ilens : List Nat)
    (xs : List (List Byte)) (hx : ∀ x ∈ xs, x.length = c) (hc8 : c % 8 = 0) (hl : ilens.length = xs.length)
    (hin : ∀ i x n, xs[i]? = some x → ilens[i]? = some n →
      n % 8 = 0 ∧ 8 * (inOff / 8 + stride / 8 * i) + n ≤ inp.length ∧
      HwDecodes ((inp.drop (8 * (inOff / 8 + stride / 8 * i))).take n) x)
    (shuffle : Option (List Nat)) (hs : ∀ m, shuffle = some m → m.Perm (List.range xs.length))
    (order : List Nat) (hord : order.Perm (List.range (oclGlobalSize xs.length)))
    (hbuf : 8 * (outOff / 8) + c * xs.length ≤ buf.length) :
    ∃ out, oclLaunch e .always c stride inOff outOff inp (some ilens) (some (List.replicate xs.length c))
        xs.length shuffle order buf = some out ∧
      out.buf = buf.take (8 * (outOff / 8)) ++ (xs.flatten ++ buf.drop (8 * (outOff / 8) + c * xs.length)) ∧
      out.lens.Perm ((List.range xs.length).map fun i => (i, c)) ∧
      out.rets.Perm ((List.range xs.length).map fun i => (i, none)) := by
  refine oclLaunch_ok e .always (by decide) c stride inOff outOff inp _ _ xs hx hc8 ?_ shuffle hs order hord buf hbuf
  intro i x hxi
  have hi : i < xs.length := (List.getElem?_eq_some_iff.1 hxi).1
  have hn : ilens[i]? = some (ilens[i]'(by omega)) := List.getElem?_eq_getElem _
  obtain ⟨h1, h2, h3⟩ := hin i x _ hxi hn
  have hxc := hx x (List.mem_of_getElem? hxi)
  refine ⟨by omega, some (ilens[i]'(by omega)), some c, by simp [optAt, hn], by simp [optAt, hi], ?_⟩
  intro b hb
  have := C43_ocl_accepts_format e (inp.drop (8 * (inOff / 8 + stride / 8 * i))) b x _ c h1
    (by rw [List.length_drop]; omega) h3 (by omega) (by omega)
  rw [hxc] at this
  exact this

/-- Two chunks, with the work items in descending order. -/
example :
    oclLaunch .little .always 32 24 0 0 (exOut8 ++ exOut8) (some [24, 24]) (some [32, 32]) 2 none
      (List.range 256).reverse (List.replicate 64 0) =
    some { buf := exIn8 ++ exIn8, lens := [(0, 32), (1, 32)], rets := [(0, none), (1, none)] } := by
  decide +kernel

/-! ## C22 for the OpenCL decoder -/

/-- C22 for `get_index` of the OpenCL decoder. -/
theorem C22_ocl_index (p : OclP) (size i : Nat) (hs : size = 2 ∨ size = 4 ∨ size = 8)
    (hi : i < 2 ^ indexBits size) :
    ((¬ ∃ o, RingRef (8 * p.out) size i o) →
      oclGetIndex size i (size * 2 ^ indexBits size) p = .err .EINVAL p) ∧
    (∀ o, RingRef (8 * p.out) size i o → oclGetIndex size i (size * 2 ^ indexBits size) p = .ok o p) := by
  obtain ⟨h1, h2⟩ := C22_sw_index (8 * p.out) size i hs hi
  have hr : roundDown (8 * p.out) 8 = p.out * 8 := by unfold roundDown; omega
  rw [hr] at h1 h2
  unfold oclGetIndex
  rw [M.get_bind_apply]
  constructor
  · intro hn
    have : ¬ _ := fun h => hn (h1.1 h)
    rw [if_pos (by show _ > _; exact not_le.1 this)]
    rfl
  · intro o hr
    have := h1.2 ⟨o, hr⟩
    rw [if_neg (by show ¬ _ > _; exact not_lt.2 this)]
    show Outcome.ok _ p = _
    rw [← h2 o hr]; rfl

/-- The ring sizes the kernel passes: computed from `dst_size` in `do_op`, 2048 for the
8-byte reference. -/
theorem C22_ocl_ring_sizes : oclFifoSize 2 = 2 * 2 ^ indexBits 2 ∧ oclFifoSize 4 = 4 * 2 ^ indexBits 4 ∧
    8 * 2 ^ 8 = 8 * 2 ^ indexBits 8 := by decide

example : RingRef (8 * 125) 2 10 532 := by refine ⟨by decide, by decide, by decide⟩

/-! ## C44: the CRC -/

/-- C44 is false: the decoder accepts every CRC, whatever the data. -/
theorem C44_ocl_any_crc (e : Endian) (inp buf d : List Byte) (crc : Nat) (ops : List Op) (rest : List Bool)
    (h8 : inp.length % 8 = 0) (hx : Expands ops d) (hs : ∀ op ∈ ops, op.isShort = false)
    (hb : bytesBits inp = ops.flatMap Op.bits ++ (bitsOf 5 0x1e ++ (bitsOf 32 crc ++ rest)))
    (hd : d.length ≤ buf.length) :
    oclCore e (some inp) 0 inp.length buf buf.length = .ret none d.length (d ++ buf.drop d.length) := by
  obtain ⟨b, h5, h6, h7, h8'⟩ := oclCore_of e (some inp) 0 inp.length buf buf.length
    (by simp only [Option.getD_some]; omega) hx hs (rest := bitsOf 32 crc ++ rest) (by simp)
    (by
      rw [Option.getD_some, Nat.mul_zero, List.drop_zero, show 8 * (inp.length / 8) = inp.length by omega,
        List.take_length]
      exact hb) hd hd (.inl (by simp))
  rw [h5, ← List.take_append_drop d.length b, h7, h8']

/-- C44 is false, concretely: a stream whose CRC field has one bit flipped, refused by the
serial decoder, is decoded without an error. -/
theorem C44_ocl_crc_false :
    ∃ inp : List Byte, ¬ (∃ d, HwDecodes inp d) ∧
      oclCore .little (some inp) 0 inp.length (List.replicate 32 0) 32 = .ret none 32 exIn8 := by
  refine ⟨exOut8.set 17 0xf9, ?_, by decide +kernel⟩
  rintro ⟨d, h⟩
  have h1 : view (optsw842Decompress .little 0 0 (exOut8.set 17 0xf9) (List.replicate 32 0)) =
      some (some .EINVAL, 0, []) := by decide +kernel
  have h2 : oclCore .little (some (exOut8.set 17 0xf9)) 0 24 (List.replicate 32 0) 32 = .ret none 32 exIn8 := by
    decide +kernel
  obtain ⟨ops, rest, hx, hs, hr, hb⟩ := opsDecode_of_hw h
  obtain ⟨-, -, -, -, ops', crc, rest', hx', hs', hb'⟩ := C43_ocl_success_is_decoding .little (exOut8.set 17 0xf9)
    (List.replicate 32 0) 24 32 32 exIn8 rfl (by decide) (by decide) h2
  rw [show (exOut8.set 17 0xf9).take 24 = exOut8.set 17 0xf9 from rfl, hb] at hb'
  obtain ⟨rfl, -⟩ := ops_bits_inj hx.1 hx'.1 hb'
  obtain rfl : d = exIn8 := Run.det hx.1 hx.2 hx'.2
  obtain ⟨b, hb1, -⟩ := (C14_opt_accepts_exactly_format .little 0 0 (exOut8.set 17 0xf9) (List.replicate 32 0)
    exIn8 (by decide)).2 ⟨h, by decide⟩
  rw [hb1] at h1
  exact absurd h1 (by simp [view])

/-! ## C45: chunks that may or may not be compressed -/

/-- C45 is false: a chunk that does not compress and happens to begin with the marker is
stored as it is, and then taken for a compressed one.  Here the kernel reports success and
leaves the output untouched. -/
theorem C45_maybe_false :
    ∃ x old tmp : List Byte, x.length = 32 ∧ old.length = 32 ∧ tmp.length = 64 ∧
      packChunk .little 0 0 ojunk0 junk0 x old tmp = some x ∧
      oclItem .little .maybe 32 x (List.replicate 32 0xaa) none none = .ret none 32 (List.replicate 32 0xaa) ∧
      List.replicate 32 0xaa ≠ x := by
  refine ⟨marker ++ List.replicate 16 0, List.replicate 32 0, List.replicate 64 0, ?_, ?_, ?_, ?_, ?_, ?_⟩ <;>
    decide +kernel

/-- C45, partial: the chunk comes back unless it was stored as it is and begins with the
marker. -/
theorem C45_maybe_partial (e : Endian) (ain aout : Nat) (j : OptJunk) (jsw : CompJunk) (x old tmp : List Byte)
    (h8 : x.length % 8 = 0) (h24 : 24 ≤ x.length) (h64 : x.length < 2 ^ 64) (hold : old.length = x.length)
    (htmp : tmp.length = 2 * x.length) (hal : (ain % 8 = 0 ∧ aout % 8 = 0) ∨ 2 * x.length ≤ 0xffffffff) :
    ∃ c, packChunk e ain aout j jsw x old tmp = some c ∧ c.length = x.length ∧
      (c ≠ x ∨ x.take 16 ≠ marker → ∀ (more buf : List Byte) (ilen olen : Option Nat), x.length ≤ buf.length →
        (∀ o, olen = some o → x.length ≤ o) →
        oclItem e .maybe x.length (c ++ more) buf ilen olen = .ret none x.length (x ++ buf.drop x.length)) := by
  obtain ⟨c, hc, h⟩ := packChunk_ok e ain aout j jsw h8 h24 hold (le_of_eq htmp.symm) hal
  have hcl : c.length = x.length := by
    rcases h with rfl | h
    · rfl
    · exact h.1
  refine ⟨c, hc, hcl, ?_⟩
  intro hm more buf ilen olen hb ho
  have ht : (c ++ more).take x.length = c := by rw [← hcl]; simp
  by_cases hcx : StoredCompressed e.isLittle x c
  · obtain ⟨b, h1, h2⟩ := oclItem_comp e .maybe (by decide) (inp := c ++ more) (buf := buf) ilen olen h8 h64
      (by rw [if_pos rfl, ht]; exact hcx) hb ho (.inl rfl)
    rw [h1, h2]
  · obtain rfl : c = x := h.resolve_right hcx
    exact oclItem_raw e ilen olen h8 (by omega) ht (by tauto) hb

/-- 64 bytes that are stored compressed, and 32 that are stored as they are. -/
example : (packChunk .little 0 0 ojunk0 junk0 (List.replicate 64 0) (List.replicate 64 1) (List.replicate 128 0)).map
      (fun c => (c.take 16 = marker : Bool)) = some true ∧
    packChunk .little 0 0 ojunk0 junk0 exIn8 (List.replicate 32 1) (List.replicate 64 0) = some exIn8 ∧
    exIn8.take 16 ≠ marker := by
  refine ⟨?_, ?_, ?_⟩ <;> decide +kernel

/-- C45, partial, for a whole launch: all chunks come back, whatever the order of the work
items and whatever the shuffle map. -/
theorem C45_launch_partial (e : Endian) (ain aout : Nat) (j : OptJunk) (jsw : CompJunk) (c : Nat)
    (xs cs : List (List Byte)) (old tmp : List Byte) (hx : ∀ x ∈ xs, x.length = c) (h8 : c % 8 = 0) (h24 : 24 ≤ c)
    (h64 : c < 2 ^ 64) (hold : old.length = c) (htmp : tmp.length = 2 * c)
    (hal : (ain % 8 = 0 ∧ aout % 8 = 0) ∨ 2 * c ≤ 0xffffffff)
    (hcs : xs.map (fun x => packChunk e ain aout j jsw x old tmp) = cs.map some)
    (hm : ∀ x ∈ xs, x ∉ cs ∨ x.take 16 ≠ marker)
    (shuffle : Option (List Nat)) (hs : ∀ m, shuffle = some m → m.Perm (List.range xs.length))
    (order : List Nat) (hord : order.Perm (List.range (oclGlobalSize xs.length)))
    (buf : List Byte) (hbuf : buf.length = c * xs.length) :
    ∃ out, oclLaunch e .maybe c c 0 0 cs.flatten none none xs.length shuffle order buf = some out ∧
      out.buf = xs.flatten ∧
      out.lens.Perm ((List.range xs.length).map fun i => (i, c)) ∧
      out.rets.Perm ((List.range xs.length).map fun i => (i, none)) := by
  have hcl : cs.length = xs.length := by simpa using (congrArg List.length hcs).symm
  have hpack : ∀ (i : Nat) (x : List Byte), xs[i]? = some x → ∃ y, cs[i]? = some y ∧ packChunk e ain aout j jsw x old tmp = some y := by
    intro i x hxi
    have hi : i < xs.length := (List.getElem?_eq_some_iff.1 hxi).1
    have := congrArg (fun l => l[i]?) hcs
    simp only [List.getElem?_map, hxi, Option.map_some] at this
    rw [List.getElem?_eq_getElem (show i < cs.length by omega)] at this
    exact ⟨_, List.getElem?_eq_getElem _, Option.some.inj this⟩
  have hclen : ∀ y ∈ cs, y.length = c := by
    intro y hy
    obtain ⟨i, hi, rfl⟩ := List.mem_iff_getElem.1 hy
    have hxi : xs[i]? = some (xs[i]'(by omega)) := List.getElem?_eq_getElem _
    obtain ⟨y, h1, h2⟩ := hpack i _ hxi
    rw [List.getElem?_eq_getElem hi] at h1
    have hxc := hx _ (List.mem_of_getElem? hxi)
    obtain ⟨y', h3, h4, -⟩ := C45_maybe_partial e ain aout j jsw (xs[i]'(by omega)) old tmp (by omega) (by omega)
      (by omega) (by omega) (by omega) (by omega)
    rw [h2] at h3
    rw [Option.some.inj h1, Option.some.inj h3, h4, hxc]
  obtain ⟨out, h1, h2, h3, h4⟩ := oclLaunch_ok e .maybe (by decide) c c 0 0 cs.flatten none none xs hx h8 (by
    intro i x hxi
    have hi : i < xs.length := (List.getElem?_eq_some_iff.1 hxi).1
    obtain ⟨y, h1, h2⟩ := hpack i x hxi
    have hxm := List.mem_of_getElem? hxi
    have hxc := hx _ hxm
    have hio : 8 * (0 / 8 + c / 8 * i) = c * i := by
      rw [Nat.zero_div, Nat.zero_add, ← Nat.mul_assoc]; congr 1; omega
    have hfl := flatten_len hclen
    have hle : c * i ≤ c * cs.length := Nat.mul_le_mul_left _ (by omega)
    refine ⟨by omega, none, none, rfl, rfl, ?_⟩
    intro b hb
    obtain ⟨y', h3, h4, h5⟩ := C45_maybe_partial e ain aout j jsw x old tmp (by omega) (by omega)
      (by omega) (by omega) (by omega) (by omega)
    rw [h2] at h3
    cases Option.some.inj h3
    have hdrop : cs.flatten.drop (c * i) = y ++ (cs.drop (i + 1)).flatten := by
      have hsplit : cs = cs.take i ++ y :: cs.drop (i + 1) := by
        conv_lhs => rw [← List.take_append_drop i cs]
        congr 1
        rw [List.drop_eq_getElem_cons (show i < cs.length by omega)]
        rw [List.getElem?_eq_getElem (show i < cs.length by omega)] at h1
        rw [Option.some.inj h1]
      have htl : (cs.take i).flatten.length = c * i := by
        rw [flatten_len (fun y hy => hclen y (List.mem_of_mem_take hy)), List.length_take, Nat.min_eq_left (by omega)]
      conv_lhs => rw [hsplit]
      rw [List.flatten_append, ← htl, List.drop_left, List.flatten_cons]
    rw [hio, hdrop]
    have := h5 ?_ (cs.drop (i + 1)).flatten b none none (by omega) (by simp)
    · rw [hxc] at this; exact this
    · rcases hm x hxm with h | h
      · left; rintro rfl; exact h (List.mem_of_getElem? h1)
      · exact .inr h) shuffle hs order hord buf (by omega)
  refine ⟨out, h1, ?_, h3, h4⟩
  rw [h2, List.drop_of_length_le (by omega)]
  simp

/-! ## C46: in-place decompression -/

/-- The bytes of a list of 256-bit words. -/
def ofWords (ws : List Nat) : List Byte :=
  ws.flatMap fun w => (List.range 32).map fun i => BitVec.ofNat 8 (w / 2 ^ (8 * (31 - i)))

/-- 128 zero bytes and 704 irregular ones. -/
def inplaceData : List Byte :=
  List.replicate 128 0#8 ++ (List.range 704).map fun i =>
    BitVec.ofNat 8 ((i * i * 7 + i * 13 + (i / 8) * (i / 8) * 31 + (i + 3) * (i + 5) * (i + 11) / 16) % 251)

/-- What `optsw842_compress` makes of them (768 bytes). -/
def inplaceStream : List Byte := ofWords
  [0xe6ce0051329486fa2dc2183eab1c128dce945fc048fddcf63fad552e03c5c94e,
   0x85ae38b5000705922dd7935b3501612d723f856bbaa81c3c2109d6e93f5aa071,
   0x97e158efb39db006296dc392ab14c8002958d2d86885ac6001a606b9cb451f59,
   0xf4017c8aec818974d380174086e560f72b78036fa4cac1a97a2bc41d595c87fa,
   0x145600001ee4eb37bb848bd301a00872ef6e26e9f03bf5c19d8b8b1bbdc04075,
   0x348e76ee019a07be09290d76f51800664c580de76a16e803588ade8f79c14a1c,
   0x0c07cdde59c070eca028b193cd614d8f2f07822f6fa2c8c18d28216d510c5e49,
   0x0ae4414996aa7f106c89660154ce3e349133fd004af9dd73bf3def5683b23e60,
   0x43a8e3a43c1c3b68832b2144f62037a17cc784b15162055d086721bfb99ee802,
   0xa82b4d4c2862fb0022c660ea6cde4aa8083aa4e6e0c26bad00161fe7703a430d,
   0x97831775e254d96404b003ea61c9a28be67180ee5c4ec8cc5d74190045e82681,
   0x78c45c7008503a4abc540eed400b419d23c7948ca6072a771cfc3506f2801a0d,
   0x4a54ac4ebefa0026d3eb7d81ecce1816688de774554a7320fa85ac78e1efa0f2,
   0x052a0beb0720a70ad81c8e282cdbb3f663c0505fb87683de9eb0085e6f4b3203,
   0x9017602a9657f2e6b458d7015adf2e585518b31409eac290d61265f00003c443,
   0x7a6b197d9f01a65921b8449eef38294c1d5f5172c5c880455c042dd30dc61606,
   0x41484bdbc84136701b8ee3a0c0452f8001663a3977cd763e441226337adc37ad,
   0x5c80a2c1b1760d74aebe02986cbfc1a2113ef818b2c40ac7b9e384412d95b38b,
   0x1a655e1e0b2cabf9549d94d9e03ec8422d8a55954402d7739b5eb1a0263404cf,
   0x163a7bba158e408924a3146aaddbf70555041aa8adfaef30132d85182732fac1,
   0x04625631ea2aac1801cba52de65e057c30679944ed9639daf9805d3a02c7783c,
   0xe184159a7f24a98e93b9005b8bbcf22f6cacf20709b45f3a75b9652002e50a71,
   0x1b07f5a78122deb09ca0bef74a04087db45b841d47e06ad0bf373842d6f48076,
   0x0bea38dbc312c01a1d440d59899c1260bba3a4c2fa54c457f112828a28000000]

/-- The chunk: marker, size, 40 unused bytes, stream. -/
def inplaceChunk : List Byte := marker ++ sizeBytes 768 ++ List.replicate 40 0 ++ inplaceStream

theorem inplace_hw : HwDecodes inplaceStream inplaceData := by
  have h : view (optsw842Decompress .little 0 0 inplaceStream (List.replicate 832 0)) = some (none, 832, inplaceData) := by
    decide +kernel
  cases hc : optsw842Decompress .little 0 0 inplaceStream (List.replicate 832 0) with
  | ret rc n b =>
    rw [hc] at h
    simp only [view, Option.some.injEq, Prod.mk.injEq] at h
    obtain ⟨rfl, rfl, h⟩ := h
    have h1 := (C14_opt_success_is_decoding .little 0 0 _ _ _ _ (by decide) hc).1
    rw [h] at h1
    have h2 : inplaceStream.take (8 * (inplaceStream.length / 8)) = inplaceStream := by decide +kernel
    rwa [h2] at h1
  | ub => rw [hc] at h; exact absurd h (by simp [view])
  | timeout => rw [hc] at h; exact absurd h (by simp [view])

theorem inplace_stored : StoredCompressed true inplaceData inplaceChunk := by
  refine ⟨by decide +kernel, by decide +kernel, 768, by decide, by decide, by decide +kernel, by decide +kernel, ?_⟩
  have h : inplaceChunk.drop (inplaceData.length - 768) = inplaceStream := by decide +kernel
  rw [h]
  exact inplace_hw

/-- The chunk is what the host packs. -/
theorem inplace_packed :
    packChunk .little 0 0 ojunk0 junk0 inplaceData (List.replicate 832 0) (List.replicate 1664 0) = some inplaceChunk := by
  decide +kernel

/-- C46 is false: a chunk, packed by the host code, that the kernel restores when input and output are different
buffers is not restored in place (the output overwrites stream words that have not been
read, and the decoder ends up reporting corrupt data). -/
theorem C46_inplace_false :
    ∃ x c old tmp : List Byte, packChunk .little 0 0 ojunk0 junk0 x old tmp = some c ∧ tmp.length = 2 * x.length ∧
      StoredCompressed true x c ∧
      oclItem .little .maybe x.length c (List.replicate x.length 0) none none = .ret none x.length x ∧
      ¬ ∃ b, oclItem .little .inplace x.length [] c none none = .ret none x.length b := by
  refine ⟨inplaceData, inplaceChunk, _, _, inplace_packed, by decide +kernel, inplace_stored, ?_, ?_⟩
  · have hl : inplaceChunk.length = inplaceData.length := inplace_stored.1
    obtain ⟨b, h1, h2⟩ := oclItem_comp .little .maybe (by decide) (inp := inplaceChunk) (x := inplaceData)
      (buf := List.replicate inplaceData.length 0) none none (by decide +kernel) (by decide +kernel)
      (by rw [if_pos rfl, ← hl, List.take_length]; exact inplace_stored) (by simp) (by simp) (.inl rfl)
    rw [h1, h2]; simp
  · rintro ⟨b, h⟩
    have h1 : view (oclItem .little .inplace inplaceData.length [] inplaceChunk none none) = some (some .EINVAL, 0, []) := by
      decide +kernel
    rw [h] at h1
    exact absurd h1 (by simp [view])

/-- C46, partial: a chunk stored as it is stays what it is, and a compressed one is restored
if the output never overtakes the part of the stream that has been fetched. -/
theorem C46_inplace_partial (e : Endian) (x buf : List Byte) (ilen olen : Option Nat) (h8 : x.length % 8 = 0)
    (h16 : 16 ≤ x.length) (h64 : x.length < 2 ^ 64) (hb : x.length ≤ buf.length)
    (ho : ∀ o, olen = some o → x.length ≤ o)
    (h : (buf.take x.length = x ∧ x.take 16 ≠ marker) ∨
      (StoredCompressed e.isLittle x (buf.take x.length) ∧ ∃ n ops rest, 0 < n ∧ n % 8 = 0 ∧ n + 24 ≤ x.length ∧
        (buf.drop 16).take 8 = (if e.isLittle then sizeBytes n else (sizeBytes n).reverse) ∧
        Expands ops x ∧ (∀ op ∈ ops, op.isShort = false) ∧
        bytesBits ((buf.drop (x.length - n)).take n) = ops.flatMap Op.bits ++ (trailer x ++ rest) ∧
        RoomInPlace x.length n ops)) :
    oclItem e .inplace x.length [] buf ilen olen = .ret none x.length (x ++ buf.drop x.length) := by
  rcases h with ⟨h1, h2⟩ | ⟨h1, n, ops, rest, h2, h3, h4, h5, h6, h7, h8', h9⟩
  · have ht : buf.take 16 = x.take 16 := by rw [← h1, List.take_take, Nat.min_eq_left h16]
    unfold oclItem
    simp only [reduceCtorEq, if_false, Option.getD_none]
    rw [notMarked_eq e (by omega), ht]
    simp only [h2, ne_eq, not_false_eq_true, decide_true]
    rw [show x ++ buf.drop x.length = buf by
      conv_lhs => enter [1]; rw [← h1]
      exact List.take_append_drop _ _]
  · obtain ⟨b, h10, h11⟩ := oclItem_comp e .inplace (by decide) (inp := []) (buf := buf) ilen olen h8 h64
      (by rw [if_neg (by decide)]; exact h1) hb ho
      (.inr ⟨ops, bitsOf 32 (crc x).toNat ++ rest, n, h6, h7, by simp, h5, h2, h3, h4, by rw [h8', trailer]; simp, by
        intro pre post o hp hr
        have := h9 pre post o hp hr
        unfold wordsUsed
        omega⟩)
    rw [h10, h11]

/-- The condition holds for every chunk that compresses to at most 48 bytes. -/
theorem C46_room_small (c n : Nat) (ops : List Op) (hn : n ≤ 48) : RoomInPlace c n ops := by
  intro pre post o _ _
  right; omega

/-- 64 zero bytes, compressed to 8, in a chunk followed by two more bytes. -/
def zeroChunk : List Byte :=
  marker ++ sizeBytes 8 ++ List.replicate 32 0 ++ [230, 198, 240, 0, 0, 0, 0, 0] ++ [1, 2]

example : oclItem .little .inplace 64 [] zeroChunk none none = .ret none 64 (List.replicate 64 0 ++ [1, 2]) := by
  have hv : optsw842Decompress .little 0 0 [230, 198, 240, 0, 0, 0, 0, 0] (List.replicate 64 1) =
      .ret none 64 (List.replicate 64 0) := by decide +kernel
  have hd : HwDecodes [230, 198, 240, 0, 0, 0, 0, 0] (List.replicate 64 0) :=
    (C14_opt_success_is_decoding .little 0 0 _ _ _ _ (by decide) hv).1
  obtain ⟨ops, rest, h1, h2, h3⟩ := hd
  have := C46_inplace_partial .little (List.replicate 64 0) zeroChunk none none (by decide) (by decide) (by decide)
    (by decide) (by simp) (.inr ⟨⟨by decide, by decide, 8, by decide, by decide, by decide, by decide,
      ⟨ops, rest, h1, h2, h3⟩⟩, 8, ops, rest, by decide, by decide, by decide, by decide, h1, h2,
      by rw [← List.append_assoc]; exact h3, C46_room_small _ _ _ (by decide)⟩)
  exact this

/-! ## C55: argument order -/

/-- C55 is false: the argument that the header calls `returnValues` is what the kernel gets as
`chunkShuffleMap`, and vice versa. -/
theorem C55_arguments_false :
    ∃ k k', clKernelArg k = some 8 ∧ clDeclParams[8]? = some "returnValues" ∧
      clKernelParams[k]? = some "chunkShuffleMap" ∧
      clKernelArg k' = some 9 ∧ clDeclParams[9]? = some "chunkShuffleMap" ∧
      clKernelParams[k']? = some "returnValues" := ⟨7, 8, by decide⟩

/-- C55, partial: every other kernel parameter gets the argument declared under its name, and
with the parameter names of the definition all of them do. -/
theorem C55_arguments_partial :
    (∀ k < clKernelParams.length, ∃ a, clKernelArg k = some a ∧ clDefParams[a]? = clKernelParams[k]? ∧
      (clKernelParams[k]? ≠ some "chunkShuffleMap" → clKernelParams[k]? ≠ some "returnValues" →
        clDeclParams[a]? = clKernelParams[k]?)) ∧
    clKernelParams.length = 9 := by
  have h : ∀ k < clKernelParams.length, (match clKernelArg k with
      | some a => decide (clDefParams[a]? = clKernelParams[k]? ∧
        (clKernelParams[k]? ≠ some "chunkShuffleMap" → clKernelParams[k]? ≠ some "returnValues" →
          clDeclParams[a]? = clKernelParams[k]?))
      | none => false) = true := by decide
  refine ⟨fun k hk => ?_, rfl⟩
  have := h k hk
  cases ha : clKernelArg k with
  | none => rw [ha] at this; simp at this
  | some a => rw [ha] at this; exact ⟨a, rfl, of_decide_eq_true this⟩

/-! ## C56: `cl842_decompress` -/

/-- C56: exactly for which input lengths one chunk is processed. -/
theorem C56_one_chunk_iff (ilen : Nat) :
    hostNumChunks ilen clWrapperStride = 1 ↔ 1 ≤ ilen ∧ ilen ≤ 99999 := by
  unfold hostNumChunks clWrapperStride
  omega

/-- C56 is false: for longer inputs the one-element arrays are read (and the variable for the
return value written) beyond their end. -/
theorem C56_wrapper_false (e : Endian) (order : List Nat) (dev : Nat → Byte) (inp buf : List Byte)
    (h : 99999 < inp.length) :
    clWrapperElements < hostElements inp.length clWrapperStride ∧
      cl842Decompress e order dev inp buf = .ub := by
  have h1 : clWrapperElements < hostElements inp.length clWrapperStride := by
    unfold hostElements hostNumChunks clWrapperStride clWrapperElements
    omega
  refine ⟨h1, ?_⟩
  unfold cl842Decompress
  simp only
  rw [if_pos (by omega)]

example : ∃ inp : List Byte, 99999 < inp.length := ⟨List.replicate 100000 0, by rw [List.length_replicate]; decide⟩

/-- C56, partial: up to 99999 bytes the wrapper decodes every hardware stream whose data fit.  The rest
of the output buffer does not keep its contents: it gets those of the device memory. -/
theorem C56_wrapper_partial (e : Endian) (order : List Nat) (horder : order.Perm (List.range 256))
    (dev : Nat → Byte) (inp buf d : List Byte) (h0 : inp ≠ []) (h8 : inp.length % 8 = 0) (hmax : inp.length ≤ 99999)
    (hd : HwDecodes inp d) (hb : d.length ≤ buf.length) :
    cl842Decompress e order dev inp buf =
      .ret none d.length (d ++ ((List.range buf.length).drop d.length).map dev) := by
  obtain ⟨db, hdb⟩ : ∃ db, db = (List.range (max 1 buf.length)).map dev := ⟨_, rfl⟩
  have hdbl : db.length = max 1 buf.length := by rw [hdb]; simp
  have hpos : 0 < inp.length := List.length_pos_iff.2 h0
  have hn : hostNumChunks inp.length clWrapperStride = 1 := (C56_one_chunk_iff _).2 ⟨hpos, hmax⟩
  have hcore := C43_ocl_accepts_format e inp db d inp.length buf.length h8 (le_refl _)
    (by rw [List.take_length]; exact hd) hb (by omega)
  have hchunk : ∀ s : ClOut, s.buf = db →
      oclWorkItem e .always 65536 clWrapperStride 0 0 inp (some [inp.length]) (some [buf.length]) 1 none 0 s =
        some { buf := d ++ db.drop d.length, lens := (0, d.length) :: s.lens, rets := (0, none) :: s.rets } := by
    intro s hsb
    unfold oclWorkItem
    rw [if_neg (by decide)]
    unfold oclChunk
    simp only [optAt, oclItem, Nat.mul_zero, Nat.zero_div, Nat.add_zero, List.drop_zero, hsb, List.getElem?_cons_zero,
      Option.map_some, Option.getD_some, hcore, List.take_zero, List.nil_append]
    rw [if_neg (by simp)]
  have hskip : ∀ g (s : ClOut), g ≠ 0 →
      oclWorkItem e .always 65536 clWrapperStride 0 0 inp (some [inp.length]) (some [buf.length]) 1 none g s = some s := by
    intro g s hg
    unfold oclWorkItem
    rw [if_pos (by omega)]
  have hfold : ∀ (l : List Nat), 0 ∉ l → ∀ s : ClOut, l.foldlM (fun s gid => oclWorkItem e .always 65536 clWrapperStride 0 0
      inp (some [inp.length]) (some [buf.length]) 1 none gid s) s = some s := by
    intro l
    induction l with
    | nil => intro _ s; rfl
    | cons g l ih =>
      intro hl s
      rw [List.foldlM_cons, hskip g s (by rintro rfl; exact hl (List.mem_cons_self ..))]
      exact ih (fun h => hl (List.mem_cons_of_mem _ h)) s
  have hmem : 0 ∈ order := horder.mem_iff.2 (by decide)
  have hnd : order.Nodup := horder.nodup_iff.2 List.nodup_range
  obtain ⟨l1, l2, rfl⟩ := List.append_of_mem hmem
  have hl1 : 0 ∉ l1 := fun h => (List.nodup_append.1 hnd).2.2 0 h 0 (List.mem_cons_self ..) rfl
  have hl2 : 0 ∉ l2 := (List.nodup_cons.1 (List.nodup_append.1 hnd).2.1).1
  unfold cl842Decompress
  simp only [hostElements, hn, clWrapperElements]
  rw [if_neg (by simp)]
  unfold oclLaunch
  simp only [List.foldlM_append, List.foldlM_cons, hfold l1 hl1, Option.bind_eq_bind, Option.bind_some,
    ← hdb, hchunk ⟨db, [], []⟩ rfl, hfold l2 hl2]
  congr 1
  rw [List.take_append, List.take_of_length_le hb, hdb, ← List.map_drop, ← List.map_take]
  congr 2
  apply List.ext_getElem
  · simp; omega
  · intro i h1 h2; simp

example : cl842Decompress .little (List.range 256).reverse (fun _ => 0x55) exOut8 (List.replicate 33 0xaa) =
    .ret none 32 (exIn8 ++ [0x55]) := by decide +kernel

/-! ## C57: accesses outside the buffers -/

/-- C57 is false in four ways: (1) a reference to the last two bytes of a full output buffer
reads two bytes after it; (2) an input whose length is not a multiple of 8 is read up to the
next multiple; (3) without an array of input lengths ("optional, can be null") words after
the end of the input buffer are fetched; (4) an embedded length larger than the chunk makes
the kernel read before its chunk (here: outside the address range). -/
theorem C57_ocl_bounds_false :
    oclCore .little (some ([0x00, 0x08, 0x10, 0x18, 0x20, 0x28, 0x30, 0x38, 0x44, 0xc0, 0xc0, 0xc0, 0xc0, 0xfc] ++
      List.replicate 10 0)) 0 24 (List.replicate 8 0) 8 = .ub ∧
    oclCore .little (some (exOut8.take 20)) 0 20 (List.replicate 40 0) 40 = .ub ∧
    oclItem .little .always 32 exOut8 (List.replicate 40 0) none (some 32) = .ub ∧
    oclItem .little .maybe 32 (marker ++ sizeBytes (2 ^ 64 - 8) ++ List.replicate 8 0) (List.replicate 40 0) none
      (some 32) = .ub := by
  refine ⟨?_, ?_, ?_, ?_⟩ <;> decide +kernel

/-- C57, partial: if whole words of the input are there and two bytes follow the output
capacity, every access is inside the buffers (and the decoder ends), for every input. -/
theorem C57_ocl_bounds_partial (e : Endian) (inp buf : List Byte) (ioff ilen olen : Nat)
    (hin : 8 * ioff + 8 * ((ilen + 7) / 8) ≤ inp.length) (hout : olen + 2 ≤ buf.length) :
    ∃ rc n b, oclCore e (some inp) ioff ilen buf olen = .ret rc n b ∧ b.length = buf.length ∧ n ≤ olen ∧
      b.drop olen = buf.drop olen ∧ (rc = none ∨ (n = 0 ∧ (rc = some .EINVAL ∨ rc = some .ENOSPC))) := by
  have h := oclCore_res e inp ioff ilen buf olen hin (by omega)
  generalize oclCore e (some inp) ioff ilen buf olen = c at h
  cases h with
  | ok h1 h2 h3 h4 h5 => exact ⟨_, _, _, rfl, h3, h2, drop_eq_of_le h5 h2, .inl rfl⟩
  | full h1 h2 h3 h4 h5 h6 => exact ⟨_, _, _, rfl, h5, Nat.zero_le _, h6, .inr ⟨rfl, .inr rfl⟩⟩
  | bad h1 h2 h3 => exact ⟨_, _, _, rfl, h2, Nat.zero_le _, h3, .inr ⟨rfl, .inl rfl⟩⟩
  | ub h => omega

/-- C57: what a reported failure means: a stream is refused only if no op sequence with end
marker and CRC field begins it (`EINVAL`), or its ops expand to more than the capacity
(`ENOSPC`). -/
theorem C57_ocl_errors (e : Endian) (inp buf : List Byte) (ilen olen n : Nat) (b : List Byte) (er : Errno)
    (h8 : ilen % 8 = 0) (hin : ilen ≤ inp.length) (hout : olen ≤ buf.length)
    (h : oclCore e (some inp) 0 ilen buf olen = .ret (some er) n b) :
    n = 0 ∧
    (er = .EINVAL → ¬ ∃ d ops crc rest, Expands ops d ∧ (∀ op ∈ ops, op.isShort = false) ∧
      bytesBits (inp.take ilen) = ops.flatMap Op.bits ++ (bitsOf 5 0x1e ++ (bitsOf 32 crc ++ rest))) ∧
    (er = .ENOSPC → ∃ d ops rest, Expands ops d ∧ (∀ op ∈ ops, op.isShort = false) ∧
      bytesBits (inp.take ilen) = ops.flatMap Op.bits ++ rest ∧ olen < d.length) ∧
    (er = .EINVAL ∨ er = .ENOSPC) := by
  have hr := oclCore_res e inp 0 ilen buf olen (by omega) hout
  rw [h, Nat.mul_zero, List.drop_zero, show 8 * (ilen / 8) = ilen by omega] at hr
  cases hr with
  | full h1 h2 h3 h4 h5 h6 => exact ⟨rfl, by simp, fun _ => ⟨_, _, _, h1, h2, h3, h4⟩, .inr rfl⟩
  | bad h1 h2 h3 =>
    refine ⟨rfl, fun _ => ?_, by simp, .inl rfl⟩
    rintro ⟨d, ops, crc, rest, h4, h5, h6⟩
    exact h1 ⟨d, ops, _, h4, h5, by simp, h6⟩

example : (view (oclCore .little (some (exOut8.take 16)) 0 16 (List.replicate 40 0) 32)) = some (some .EINVAL, 0, []) ∧
    (view (oclCore .little (some exOut8) 0 24 (List.replicate 40 0) 24)) = some (some .ENOSPC, 0, []) := by
  constructor <;> decide +kernel

end Lib842.Props
