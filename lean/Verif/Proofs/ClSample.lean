import Verif.Model.ClSample
import Verif.Proofs.OclLong
import Verif.Proofs.OclKernel
import Verif.Props.Ocl
import Verif.Props.Sample
/-!
# The OpenCL sample: helper lemmas
-/

namespace Lib842
open Spec

/-! ## Launches whose items depend on the previous contents of their chunk -/

/-- A launch in which every work item turns its chunk `ys[i]` of the output buffer into `xs[i]`. -/
theorem oclLaunch_from (e : Endian) (fmt : ClFormat) (c stride inOff outOff : Nat)
    (inp : List Byte) (ilens olens : Option (List Nat)) (xs ys : List (List Byte)) (hx : ∀ x ∈ xs, x.length = c)
    (hys : ys.length = xs.length) (hy : ∀ y ∈ ys, y.length = c) (hc8 : c % 8 = 0)
    (hitem : ∀ i x y, xs[i]? = some x → ys[i]? = some y →
      (if fmt = .inplace then 8 * (inOff / 8 + stride / 8 * i) = 8 * (outOff / 8 + c / 8 * i)
        else 8 * (inOff / 8 + stride / 8 * i) ≤ inp.length) ∧
      ∃ il ol, optAt ilens i = some il ∧ optAt olens i = some ol ∧ ∀ buf : List Byte, c ≤ buf.length → buf.take c = y →
        oclItem e fmt c (inp.drop (8 * (inOff / 8 + stride / 8 * i))) buf il ol = .ret none c (x ++ buf.drop c))
    (shuffle : Option (List Nat)) (hs : ∀ m, shuffle = some m → m.Perm (List.range xs.length))
    (order : List Nat) (hord : order.Perm (List.range (oclGlobalSize xs.length)))
    (pre post : List Byte) (hprel : pre.length = 8 * (outOff / 8)) :
    ∃ out, oclLaunch e fmt c stride inOff outOff inp ilens olens xs.length shuffle order (pre ++ (ys.flatten ++ post)) = some out ∧
      out.buf = pre ++ (xs.flatten ++ post) := by
  have hG : xs.length ≤ oclGlobalSize xs.length := by unfold oclGlobalSize; omega
  have hperm := processed_perm hord hG hs
  have main : ∀ (order : List Nat) (done : List Nat) (cs : List (List Byte)) (s : ClOut),
      (∀ g ∈ processed xs.length shuffle order, g < xs.length) →
      (∀ m, shuffle = some m → m.length = xs.length) →
      (processed xs.length shuffle order).Nodup → (∀ g ∈ processed xs.length shuffle order, g ∉ done) →
      cs.length = xs.length → (∀ x ∈ cs, x.length = c) → (∀ i ∈ done, cs[i]? = xs[i]?) → (∀ i, i ∉ done → cs[i]? = ys[i]?) →
      s.buf = pre ++ (cs.flatten ++ post) →
      ∃ (cs' : List (List Byte)) (out : ClOut), order.foldlM (fun s gid => oclWorkItem e fmt c stride inOff outOff inp ilens olens
          xs.length shuffle gid s) s = some out ∧ cs'.length = xs.length ∧
        (∀ i, i ∈ done ∨ i ∈ processed xs.length shuffle order → cs'[i]? = xs[i]?) ∧
        out.buf = pre ++ (cs'.flatten ++ post) := by
    intro order
    induction order with
    | nil =>
      intro done cs s _ _ _ _ hl _ hd _ hb
      exact ⟨cs, s, rfl, hl, fun i hi => hd i (by simpa [processed] using hi), hb⟩
    | cons g order ih =>
      intro done cs s hlt hml hnd hdj hl hcl hd hnew hb
      rw [List.foldlM_cons]
      by_cases hg : g < xs.length
      · obtain ⟨i, hi⟩ : ∃ i, i = (match shuffle with | none => g | some m => m.getD g 0) := ⟨_, rfl⟩
        have hproc : processed xs.length shuffle (g :: order) = i :: processed xs.length shuffle order := by
          unfold processed
          rw [List.filter_cons_of_pos (by simpa using hg), List.map_cons, hi]
          cases shuffle <;> rfl
        rw [hproc] at hlt hnd hdj ⊢
        rw [List.nodup_cons] at hnd
        have hil : i < xs.length := hlt i (List.mem_cons_self ..)
        obtain ⟨x, hxi⟩ : ∃ x, xs[i]? = some x := ⟨_, List.getElem?_eq_getElem hil⟩
        obtain ⟨y, hyi⟩ : ∃ y, ys[i]? = some y := ⟨_, List.getElem?_eq_getElem (by omega)⟩
        obtain ⟨hio, il, ol, h1, h2, h3⟩ := hitem i x y hxi hyi
        have hcy : cs[i]? = some y := (hnew i (hdj i (List.mem_cons_self ..))).trans hyi
        have hoff : 8 * (outOff / 8 + c / 8 * i) = pre.length + c * i := by
          rw [hprel, Nat.mul_add, ← Nat.mul_assoc]
          congr 2; omega
        have hfl := flatten_len hcl
        have hci : c * i + c ≤ c * xs.length := by rw [← Nat.mul_succ]; exact Nat.mul_le_mul_left _ hil
        have hsl : s.buf.length = pre.length + (c * xs.length + post.length) := by
          rw [hb, List.length_append, List.length_append, hfl, hl]
        have hslice : (s.buf.drop (pre.length + c * i)).take c = y := by
          have hsplit : cs.flatten = (cs.take i).flatten ++ (y ++ (cs.drop (i + 1)).flatten) := by
            conv_lhs => rw [← List.take_append_drop i cs]
            rw [List.flatten_append]
            congr 1
            rw [List.drop_eq_getElem_cons (by omega), List.flatten_cons]
            congr 1
            rw [List.getElem?_eq_getElem (by omega)] at hcy
            exact Option.some.inj hcy
          have hpl : (cs.take i).flatten.length = c * i := by
            rw [flatten_len fun x hx => hcl x (List.mem_of_mem_take hx), List.length_take, Nat.min_eq_left (by omega)]
          have hyl : y.length = c := hy y (List.mem_of_getElem? hyi)
          rw [hb, hsplit, List.drop_length_add_append, List.append_assoc, ← hpl, List.drop_left, List.append_assoc, ← hyl,
            List.take_left]
        have hchunk : oclChunk e fmt c stride inOff outOff inp ilens olens i s =
            some { buf := pre ++ ((cs.set i x).flatten ++ post), lens := (i, c) :: s.lens,
                   rets := (i, none) :: s.rets } := by
          unfold oclChunk
          simp only
          rw [if_neg (by
            by_cases hf : fmt = .inplace
            · rw [if_pos hf] at hio
              rintro (⟨h, -⟩ | ⟨-, h⟩ | h)
              · exact h hf
              · exact h hio
              · omega
            · rw [if_neg hf] at hio
              rintro (⟨-, h⟩ | ⟨h, -⟩ | h)
              · omega
              · exact hf h
              · omega), h1, h2]
          simp only
          rw [h3 _ (by rw [List.length_drop, hoff]; omega) (by rw [hoff]; exact hslice), hoff, hb]
          simp only
          rw [set_slice hcl (by omega)]
        have hwork : oclWorkItem e fmt c stride inOff outOff inp ilens olens xs.length shuffle g s =
            oclChunk e fmt c stride inOff outOff inp ilens olens i s := by
          unfold oclWorkItem
          rw [if_neg (by omega)]
          cases shuffle with
          | none => simp only at hi ⊢; rw [hi]
          | some m =>
            have := hml m rfl
            simp only at hi ⊢
            rw [List.getD_eq_getElem?_getD, List.getElem?_eq_getElem (by omega)] at hi
            rw [List.getElem?_eq_getElem (by omega), hi]; rfl
        rw [hwork, hchunk]
        have hset : ∀ k, k = i ∨ k ∈ done → (cs.set i x)[k]? = xs[k]? := by
          rintro k hk
          by_cases hki : k = i
          · subst hki; rw [List.getElem?_set_self (by omega), hxi]
          · rw [List.getElem?_set_ne (Ne.symm hki)]; exact hd k (by tauto)
        obtain ⟨cs', out, h4, h5, h6, h7⟩ := ih (i :: done) (cs.set i x)
          { buf := pre ++ ((cs.set i x).flatten ++ post), lens := (i, c) :: s.lens, rets := (i, none) :: s.rets }
          (fun k hk => hlt k (List.mem_cons_of_mem _ hk)) hml hnd.2
          (fun k hk => by
            rw [List.mem_cons, not_or]
            exact ⟨fun h => hnd.1 (h ▸ hk), hdj k (List.mem_cons_of_mem _ hk)⟩)
          (by simpa using hl)
          (fun y hy => by
            rcases List.mem_or_eq_of_mem_set hy with h | h
            · exact hcl y h
            · rw [h]; exact hx x (List.mem_of_getElem? hxi))
          (fun k hk => hset k (by simpa using hk))
          (fun k hk => by
            rw [List.mem_cons, not_or] at hk
            rw [List.getElem?_set_ne (Ne.symm hk.1)]
            exact hnew k hk.2) rfl
        refine ⟨cs', out, h4, h5, fun k hk => h6 k ?_, h7⟩
        simp only [List.mem_cons] at hk ⊢; tauto
      · have hproc : processed xs.length shuffle (g :: order) = processed xs.length shuffle order := by
          unfold processed
          rw [List.filter_cons_of_neg (by simpa using hg)]
        rw [hproc] at hlt hnd hdj ⊢
        have hwork : oclWorkItem e fmt c stride inOff outOff inp ilens olens xs.length shuffle g s = some s := by
          unfold oclWorkItem
          rw [if_pos (by omega)]
        rw [hwork]
        exact ih done cs s hlt hml hnd hdj hl hcl hd hnew hb
  obtain ⟨cs', out, h1, h2, h3, h4⟩ := main order [] ys { buf := pre ++ (ys.flatten ++ post), lens := [], rets := [] }
    (fun g hg => List.mem_range.1 (hperm.mem_iff.1 hg)) (fun m hm => by simpa using (hs m hm).length_eq)
    (hperm.nodup_iff.2 List.nodup_range) (by simp) hys hy (by simp) (fun _ _ => rfl) rfl
  refine ⟨out, h1, ?_⟩
  have : cs' = xs := by
    apply List.ext_getElem?
    intro i
    by_cases hi : i < xs.length
    · exact h3 i (.inr (hperm.mem_iff.2 (List.mem_range.2 hi)))
    · rw [List.getElem?_eq_none (by omega), List.getElem?_eq_none (by omega)]
  rw [h4, this]

/-! ## The compression loop -/

/-- Part `i` of a buffer of parts of `S` bytes -/
def part (S : Nat) (l : List Byte) (i : Nat) : List Byte := (l.drop (S * i)).take S

theorem part_ext {S : Nat} {l l' : List Byte} {i : Nat} (h : ∀ j < S, l[S * i + j]? = l'[S * i + j]?) :
    part S l i = part S l' i := by
  unfold part
  apply List.ext_getElem?
  intro j
  by_cases hj : j < S
  · rw [List.getElem?_take_of_lt hj, List.getElem?_take_of_lt hj, List.getElem?_drop, List.getElem?_drop, h j hj]
  · rw [List.getElem?_take_eq_none (by omega), List.getElem?_take_eq_none (by omega)]

theorem part_end {S num i : Nat} {L : Nat} (hi : i < num) (hL : L = num * S) : S * i + S ≤ L := by
  have h := Nat.mul_le_mul_left S (show i + 1 ≤ num from hi)
  rw [Nat.mul_succ] at h
  rw [hL, Nat.mul_comm num]
  exact h

theorem part_disjoint {S i k j : Nat} (hne : i ≠ k) (hj : j < S) : ¬ (S * i ≤ S * k + j ∧ S * k + j < S * i + S) := by
  intro ⟨h1, h2⟩
  rcases Nat.lt_or_gt_of_ne hne with h | h
  · have := Nat.mul_le_mul_left S (show i + 1 ≤ k from h)
    rw [Nat.mul_succ] at this
    omega
  · have := Nat.mul_le_mul_left S (show k + 1 ≤ i from h)
    rw [Nat.mul_succ] at this
    omega

theorem part_write {S num i : Nat} {l l' b : List Byte} (hb : b.length = S) (hw : writeBytes l (S * i) b = some l')
    (hl : l.length = num * S) (hi : i < num) :
    part S l' i = b ∧ ∀ k, k ≠ i → part S l' k = part S l k := by
  obtain ⟨h1, h2⟩ := writeBytes_get hw
  have he := part_end hi hl
  constructor
  · unfold part
    apply List.ext_getElem?
    intro j
    by_cases hj : j < S
    · rw [List.getElem?_take_of_lt hj, List.getElem?_drop, h2, if_pos (by omega), Nat.add_sub_cancel_left]
    · rw [List.getElem?_take_eq_none (by omega), List.getElem?_eq_none (by omega)]
  · intro k hk
    apply part_ext
    intro j hj
    rw [h2, hb, if_neg (part_disjoint (Ne.symm hk) hj)]

/-- The loop, given what one iteration does. -/
theorem clLoop {body : Nat → ClMem → BRes ClMem} {S num : Nat} {old : List Byte} {Q : Nat → Nat → List Byte → Prop}
    (hbody : ∀ i m, i < num → m.out.length = num * S → m.olens.length = num → part S m.out i = old →
      ∃ n b out', body i m = .ok ⟨out', m.olens.set i n⟩ ∧ writeBytes m.out (S * i) b = some out' ∧ b.length = S ∧ Q i n b) :
    ∀ (ord : List Nat) (m : ClMem), (∀ i ∈ ord, i < num) → ord.Nodup → m.out.length = num * S → m.olens.length = num →
      (∀ i ∈ ord, part S m.out i = old) →
      ∃ m', forEach body ord m = .ok m' ∧ m'.out.length = num * S ∧ m'.olens.length = num ∧
        (∀ i ∈ ord, ∃ n, m'.olens[i]? = some n ∧ Q i n (part S m'.out i)) ∧
        ∀ i, i ∉ ord → m'.olens[i]? = m.olens[i]? ∧ part S m'.out i = part S m.out i := by
  intro ord
  induction ord with
  | nil =>
    intro m _ _ h1 h2 _
    exact ⟨m, rfl, h1, h2, by simp, fun _ _ => ⟨rfl, rfl⟩⟩
  | cons i ord ih =>
    intro m hlt hnd h1 h2 ho
    rw [List.nodup_cons] at hnd
    have hi := hlt i List.mem_cons_self
    obtain ⟨n, b, out', hb1, hb2, hb3, hb4⟩ := hbody i m hi h1 h2 (ho i List.mem_cons_self)
    obtain ⟨w1, w2⟩ := part_write hb3 hb2 h1 hi
    obtain ⟨m', a1, a2, a3, a4, a5⟩ := ih ⟨out', m.olens.set i n⟩ (fun k hk => hlt k (List.mem_cons_of_mem _ hk)) hnd.2
      ((writeBytes_get hb2).1.trans h1) (by simpa using h2) (fun k hk => by
        show part S out' k = old
        rw [w2 k (fun h => hnd.1 (h ▸ hk))]
        exact ho k (List.mem_cons_of_mem _ hk))
    refine ⟨m', ?_, a2, a3, ?_, ?_⟩
    · rw [forEach, hb1]; exact a1
    · intro k hk
      rcases List.mem_cons.1 hk with rfl | hk
      · obtain ⟨c1, c2⟩ := a5 k hnd.1
        refine ⟨n, ?_, ?_⟩
        · rw [c1]
          show (m.olens.set k n)[k]? = some n
          rw [List.getElem?_set_self (by omega)]
        · rw [c2]
          show Q k n (part S out' k)
          rw [w1]; exact hb4
      · exact a4 k hk
    · intro k hk
      rw [List.mem_cons, not_or] at hk
      obtain ⟨c1, c2⟩ := a5 k hk.2
      refine ⟨c1.trans ?_, c2.trans (w2 k hk.1)⟩
      show (m.olens.set i n)[k]? = _
      rw [List.getElem?_set_ne (Ne.symm hk.1)]

theorem length_part {S num i : Nat} {l : List Byte} (hl : l.length = num * S) (hi : i < num) : (part S l i).length = S := by
  have := part_end hi hl
  unfold part
  rw [List.length_take, List.length_drop]
  omega

theorem part_replicate {S num i : Nat} (hi : i < num) : part S (List.replicate (num * S) (0 : Byte)) i = List.replicate S 0 := by
  have := part_end (S := S) hi rfl
  unfold part
  rw [List.drop_replicate, List.take_replicate, Nat.min_eq_left (by omega)]

theorem parts_flatten {S : Nat} : ∀ {num : Nat} {l : List Byte}, l.length = num * S →
    ((List.range num).map (part S l)).flatten = l := by
  intro num
  induction num with
  | zero =>
    intro l hl
    rw [Nat.zero_mul] at hl
    rw [List.eq_nil_of_length_eq_zero hl]; rfl
  | succ num ih =>
    intro l hl
    rw [Nat.succ_mul] at hl
    rw [List.range_succ, List.map_append, List.flatten_append]
    have h1 : (List.range num).map (part S l) = (List.range num).map (part S (l.take (num * S))) := by
      apply List.map_congr_left
      intro i hi
      have := part_end (S := S) (List.mem_range.1 hi) rfl
      apply part_ext
      intro j hj
      rw [List.getElem?_take_of_lt (by omega)]
    rw [h1, ih (by rw [List.length_take]; omega)]
    simp only [List.map_cons, List.map_nil, List.flatten_cons, List.flatten_nil, List.append_nil]
    unfold part
    rw [Nat.mul_comm S num, List.take_of_length_le (l := l.drop (num * S)) (by rw [List.length_drop]; omega),
      List.take_append_drop]

theorem read_part {S num i : Nat} {l : List Byte} (hl : l.length = num * S) (hi : i < num) :
    readBytes l (S * i) S = some (part S l i) := by
  unfold readBytes
  rw [if_pos (part_end hi hl)]; rfl

/-- What the call of the compressor for chunk `i` gives, with the buffer `dst` at address `o`. -/
def Compressed (e : Endian) (J : ClJunk) (inp : List Byte) (o : Nat → Nat) (dst : Nat → List Byte) (i n : Nat) (b : List Byte) :
    Prop :=
  optsw842Compress e (J.ain + 65536 * i) (o i) (J.opt i) (J.sw i) (part 65536 inp i) (dst i) = .ret none n b ∧
    n ≤ 70664 ∧ n % 8 = 0 ∧ b.length = 131072 ∧ HwDecodes (b.take n) (part 65536 inp i)

theorem compressed_ok (e : Endian) (J : ClJunk) {inp : List Byte} {num i : Nat} (hin : inp.length = num * 65536) (hi : i < num)
    (o : Nat → Nat) (dst : Nat → List Byte) (hd : (dst i).length = 131072) : ∃ n b, Compressed e J inp o dst i n b := by
  have hl := length_part hin hi
  obtain ⟨n, b, h1, h2⟩ := Props.C12_opt_worst_case e (J.ain + 65536 * i) (o i) (J.opt i) (J.sw i) (part 65536 inp i) (dst i)
    (by omega) (by intro h; rw [h] at hl; simp at hl) (by omega) (.inr (by omega))
  refine ⟨n, b, h1, by omega, ?_, ?_, (Props.C26_opt_hw_compatible _ _ _ _ _ _ _ _ _ h1).2⟩
  · exact (Props.C07_opt_length_contract _ _ _ _ _ _ _ _ _ _ _ _ _ _ _ _ _ Iff.rfl h1 h1).2.1
  · obtain ⟨b', hb', hr⟩ := optsw842Compress_eq e (J.ain + 65536 * i) (o i) (J.opt i) (J.sw i) (part 65536 inp i) (dst i)
      (by omega) (.inl (by intro h; rw [h] at hl; simp at hl))
    rw [h1] at hr
    rcases hr with ⟨-, -, h, -⟩ | ⟨-, h⟩
    · cases h; omega
    · cases h

theorem setAt_ok {l : List Nat} {i n num : Nat} (hl : l.length = num) (hi : i < num) : setAt l i n = some (l.set i n) := by
  unfold setAt; rw [if_pos (by omega)]

theorem clComp_always (e : Endian) (J : ClJunk) {inp : List Byte} {num : Nat} (hin : inp.length = num * 65536) :
    ∀ i (m : ClMem), i < num → m.out.length = num * 131072 → m.olens.length = num →
      part 131072 m.out i = List.replicate 131072 0 →
      ∃ n b out', clCompChunk e .always J inp i m = .ok ⟨out', m.olens.set i n⟩ ∧
        writeBytes m.out (131072 * i) b = some out' ∧ b.length = 131072 ∧
        Compressed e J inp (fun i => J.aout + 131072 * i) (fun _ => List.replicate 131072 0) i n b := by
  intro i m hi hm hol hz
  obtain ⟨n, b, hc⟩ := compressed_ok e J hin hi (fun i => J.aout + 131072 * i) (fun _ => List.replicate 131072 0)
    List.length_replicate
  obtain ⟨out', hw⟩ := writeBytes_some (m := m.out) (bs := b) (i := 131072 * i) (by
    rw [hc.2.2.2.1]; exact part_end hi hm)
  refine ⟨n, b, out', ?_, hw, hc.2.2.2.1, hc⟩
  unfold clCompChunk
  have h1 : readBytes inp (sampleChunk * i) sampleChunk = some (part 65536 inp i) := read_part hin hi
  have h2 : readBytes m.out (sampleChunk * 2 * i) (sampleChunk * 2) = some (part 131072 m.out i) := read_part hm hi
  have h3 : optsw842Compress e (J.ain + sampleChunk * i) (J.aout + sampleChunk * 2 * i) (J.opt i) (J.sw i) (part 65536 inp i)
      (List.replicate 131072 0) = .ret none n b := hc.1
  have h4 : writeBytes m.out (sampleChunk * 2 * i) b = some out' := hw
  simp only [h1, bind, BRes.bind, BRes.access, if_true, h2, hz, h3, h4, setAt_ok hol hi]

/-- What a packed chunk contains. -/
def Packed (e : Endian) (J : ClJunk) (inp : List Byte) (i n : Nat) (b : List Byte) : Prop :=
  ∃ t, Compressed e J inp J.atmp J.tmp i n t ∧ ((65512 < n ∧ b = part 65536 inp i) ∨
    (n ≤ 65512 ∧ 0 < n ∧ n % 8 = 0 ∧ StoredCompressed e.isLittle (part 65536 inp i) b ∧
      (b.drop 16).take 8 = (if e.isLittle then sizeBytes n else (sizeBytes n).reverse) ∧ b.drop (65536 - n) = t.take n))

/-- The two packed formats -/
theorem clComp_packed (e : Endian) {fmt : ClFormat} (hfmt : fmt ≠ .always) (J : ClJunk) {inp : List Byte} {num : Nat}
    (hin : inp.length = num * 65536) (htmp : ∀ i < num, (J.tmp i).length = 131072) :
    ∀ i (m : ClMem), i < num → m.out.length = num * 65536 → m.olens.length = num →
      part 65536 m.out i = List.replicate 65536 0 →
      ∃ n b out', clCompChunk e fmt J inp i m = .ok ⟨out', m.olens.set i n⟩ ∧
        writeBytes m.out (65536 * i) b = some out' ∧ b.length = 65536 ∧
        Packed e J inp i n b := by
  intro i m hi hm hol hz
  have hl := length_part hin hi
  obtain ⟨n, t, hc⟩ := compressed_ok e J hin hi J.atmp J.tmp (htmp i hi)
  obtain ⟨n', t', b, hc', hp, hb⟩ := packChunk_cases e (J.ain + 65536 * i) (J.atmp i) (J.opt i) (J.sw i) (x := part 65536 inp i)
    (old := List.replicate 65536 0) (tmp := J.tmp i) (by omega) (by omega) (by rw [List.length_replicate, hl])
    (by have := htmp i hi; omega) (.inr (by omega))
  have hcc := hc.1
  rw [hc'] at hcc
  injection hcc with _ hcn hct
  subst hcn hct
  have hbl : b.length = 65536 := by
    rcases hb with ⟨-, rfl⟩ | ⟨-, -, -, hb, -⟩
    · exact hl
    · rw [hb.1, hl]
  obtain ⟨out', hw⟩ := writeBytes_some (m := m.out) (bs := b) (i := 65536 * i) (by rw [hbl]; exact part_end hi hm)
  rw [hl] at hb
  refine ⟨n', b, out', ?_, hw, hbl, t', hc, ?_⟩
  · unfold clCompChunk
    have h1 : readBytes inp (sampleChunk * i) sampleChunk = some (part 65536 inp i) := read_part hin hi
    have h2 : readBytes m.out (sampleChunk * i) sampleChunk = some (part 65536 m.out i) := read_part hm hi
    have h3 : optsw842Compress e (J.ain + sampleChunk * i) (J.atmp i) (J.opt i) (J.sw i) (part 65536 inp i) (J.tmp i) =
      .ret none n' t' := hc'
    have h4 : writeBytes m.out (sampleChunk * i) b = some out' := hw
    have h5 : packChunk e (J.ain + sampleChunk * i) (J.atmp i) (J.opt i) (J.sw i) (part 65536 inp i) (List.replicate 65536 0) (J.tmp i) =
      some b := hp
    simp only [h1, bind, BRes.bind, BRes.access, if_neg hfmt, h2, hz, h3, h4, h5, setAt_ok hol hi]
  · rcases hb with ⟨h1, h2⟩ | h
    · exact .inl ⟨by omega, h2⟩
    · exact .inr h

/-! ## Decompression -/

theorem hostNumChunks_mul {num S : Nat} (hS : 0 < S) : hostNumChunks (num * S) S = num := by
  unfold hostNumChunks
  rw [Nat.add_sub_assoc (by omega), Nat.add_comm, Nat.add_mul_div_right _ _ hS, Nat.div_eq_of_lt (by omega), Nat.zero_add]

theorem getElem?_parts {S num : Nat} {l : List Byte} {i : Nat} {x : List Byte}
    (h : ((List.range num).map (part S l))[i]? = some x) : i < num ∧ x = part S l i := by
  rw [List.getElem?_map] at h
  by_cases hi : i < num
  · rw [List.getElem?_range hi] at h
    exact ⟨hi, (Option.some.inj h).symm⟩
  · rw [List.getElem?_eq_none (by rw [List.length_range]; omega)] at h
    cases h

theorem clShuffle_perm (olens : List Nat) : (clShuffle olens).Perm (List.range olens.length) := by
  unfold clShuffle
  have := List.filter_append_perm (fun i => decide (olens.getD i 0 < sampleChunk)) (List.range olens.length)
  have h : (fun i => decide (¬ olens.getD i 0 < sampleChunk)) = fun i => !decide (olens.getD i 0 < sampleChunk) := by
    funext i; exact decide_not
  rw [h]
  exact this

theorem accumulate_eq (l : List Nat) :
    accumulateInt l = ((BitVec.ofNat 32 l.sum).signExtend 64).toNat := by
  unfold accumulateInt
  have : ∀ (l : List Nat) (a : BitVec 32),
      l.foldl (fun (a : BitVec 32) n => (a.signExtend 64 + BitVec.ofNat 64 n).setWidth 32) a = a + BitVec.ofNat 32 l.sum := by
    intro l
    induction l with
    | nil => intro a; simp
    | cons n l ih =>
      intro a
      rw [List.foldl_cons, ih, List.sum_cons]
      have h1 : (a.signExtend 64 + BitVec.ofNat 64 n).setWidth 32 = a + BitVec.ofNat 32 n := by
        rw [BitVec.setWidth_add _ _ (by decide)]
        congr 1
        · apply BitVec.eq_of_getLsbD_eq
          intro i hi
          rw [BitVec.getLsbD_setWidth, BitVec.getLsbD_signExtend]
          simp [hi, show i < 64 by omega]
        · apply BitVec.eq_of_toNat_eq
          simp only [BitVec.toNat_setWidth, BitVec.toNat_ofNat]
          omega
      rw [h1, BitVec.ofNat_add, BitVec.add_assoc]
  rw [this, BitVec.zero_add]

theorem accumulate_small {l : List Nat} (h : l.sum < 2 ^ 31) : accumulateInt l = l.sum := by
  rw [accumulate_eq, BitVec.signExtend_eq_setWidth_of_msb_false]
  · rw [BitVec.toNat_setWidth, BitVec.toNat_ofNat]; omega
  · rw [BitVec.msb_eq_decide, BitVec.toNat_ofNat, decide_eq_false_iff_not]; omega

theorem accumulate_big {l : List Nat} (h : 2 ^ 31 ≤ l.sum) (h' : l.sum < 2 ^ 32) :
    accumulateInt l = 2 ^ 64 - 2 ^ 32 + l.sum := by
  rw [accumulate_eq]
  have hm : (BitVec.ofNat 32 l.sum).msb = true := by
    rw [BitVec.msb_eq_decide, BitVec.toNat_ofNat, decide_eq_true_iff]; omega
  rw [BitVec.toNat_signExtend, hm, if_pos rfl, BitVec.toNat_setWidth, BitVec.toNat_ofNat]
  omega

/-- The item of a chunk that was not packed -/
theorem item_always (e : Endian) {J : ClJunk} {inp out : List Byte} {num i n : Nat} {o : Nat → Nat} {dst : Nat → List Byte}
    (hin : inp.length = num * 65536) (hout : out.length = num * 131072) (hi : i < num)
    (h : Compressed e J inp o dst i n (part 131072 out i)) (buf : List Byte) (hb : 65536 ≤ buf.length) :
    oclItem e .always 65536 (out.drop (131072 * i)) buf none none = .ret none 65536 (part 65536 inp i ++ buf.drop 65536) := by
  have hl := length_part hin hi
  have he := part_end hi hout
  obtain ⟨-, h2, h3, -, h5⟩ := h
  have ht : (part 131072 out i).take n = (out.drop (131072 * i)).take n := by
    unfold part; rw [List.take_take, Nat.min_eq_left (by omega)]
  rw [ht] at h5
  have := oclCore_long e (out.drop (131072 * i)) n (2 ^ 64 - 1) buf (2 ^ 64 - 1) h3 (by rw [List.length_drop]; omega) (by omega) h5
    (by omega) (by omega)
  rw [hl] at this
  exact this

theorem item_maybe (e : Endian) {J : ClJunk} {inp out : List Byte} {num i n : Nat}
    (hin : inp.length = num * 65536) (hi : i < num)
    (h : Packed e J inp i n (part 65536 out i)) (hm : n ≤ 65512 ∨ (part 65536 inp i).take 16 ≠ marker)
    (buf : List Byte) (hb : 65536 ≤ buf.length) :
    oclItem e .maybe 65536 (out.drop (65536 * i)) buf none none = .ret none 65536 (part 65536 inp i ++ buf.drop 65536) := by
  have hl := length_part hin hi
  obtain ⟨t, -, h⟩ := h
  rcases h with ⟨h1, h2⟩ | ⟨h1, -, -, h2, -, -⟩
  · have := oclItem_raw e (x := part 65536 inp i) (inp := out.drop (65536 * i)) (buf := buf) none none (by omega) (by omega)
      (by rw [hl]; exact h2) (by rcases hm with h | h; omega; exact h) (by omega)
    rw [hl] at this
    exact this
  · obtain ⟨b, h3, h4⟩ := oclItem_comp e .maybe (by decide) (x := part 65536 inp i) (inp := out.drop (65536 * i)) (buf := buf)
      none none (by omega) (by omega) (by rw [if_pos rfl, hl]; exact h2) (by omega) (by simp) (.inl rfl)
    rw [hl] at h3 h4
    rw [h3, h4]

/-- The stream of chunk `i` leaves room for decoding in place. -/
def InPlaceRoom (e : Endian) (J : ClJunk) (inp : List Byte) (i : Nat) : Prop :=
  ∀ n t, optsw842Compress e (J.ain + 65536 * i) (J.atmp i) (J.opt i) (J.sw i) (part 65536 inp i) (J.tmp i) = .ret none n t →
    if n ≤ 65512 then ∃ ops rest, Expands ops (part 65536 inp i) ∧ (∀ op ∈ ops, op.isShort = false) ∧
        bytesBits (t.take n) = ops.flatMap Op.bits ++ (trailer (part 65536 inp i) ++ rest) ∧ RoomInPlace 65536 n ops
      else (part 65536 inp i).take 16 ≠ marker

theorem item_inplace (e : Endian) {J : ClJunk} {inp out : List Byte} {num i n : Nat}
    (hin : inp.length = num * 65536) (hi : i < num)
    (h : Packed e J inp i n (part 65536 out i)) (hm : InPlaceRoom e J inp i)
    (buf : List Byte) (hb : 65536 ≤ buf.length) (hbt : buf.take 65536 = part 65536 out i) :
    oclItem e .inplace 65536 [] buf none none = .ret none 65536 (part 65536 inp i ++ buf.drop 65536) := by
  have hl := length_part hin hi
  obtain ⟨t, hc, h⟩ := h
  have hm := hm n t hc.1
  have := Props.C46_inplace_partial e (part 65536 inp i) buf none none (by omega) (by omega) (by omega) (by omega) (by simp)
  rw [hl] at this
  apply this
  rcases h with ⟨h1, h2⟩ | ⟨h1, h2, h3, h4, h5, h6⟩
  · rw [if_neg (by omega)] at hm
    exact .inl ⟨hbt.trans h2, hm⟩
  · rw [if_pos h1] at hm
    obtain ⟨ops, rest, m1, m2, m3, m4⟩ := hm
    refine .inr ⟨by rw [hbt]; exact h4, n, ops, rest, h2, h3, by omega, ?_, m1, m2, ?_, m4⟩
    · rw [← h5, ← hbt, List.drop_take, List.take_take, Nat.min_eq_left (by omega)]
    · rw [← m3, ← h6, ← hbt, List.drop_take, show 65536 - (65536 - n) = n by omega]

/-- What the benchmark reports. -/
def Reports (e : Endian) (J : ClJunk) (inp : List Byte) (num : Nat) (o : Nat → Nat) (dst : Nat → List Byte) (sizes : List Nat) : Prop :=
  sizes.length = num ∧ ∀ i < num, ∃ n b, sizes[i]? = some n ∧
    optsw842Compress e (J.ain + 65536 * i) (o i) (J.opt i) (J.sw i) (part 65536 inp i) (dst i) = .ret none n b

theorem shuffle_ok (b : Bool) {olens : List Nat} {num : Nat} (h : olens.length = num) :
    ∀ m, (if b then some (clShuffle olens) else none) = some m → m.Perm (List.range num) := by
  intro m hm
  cases b
  · cases hm
  · cases hm
    rw [← h]; exact clShuffle_perm olens

theorem clBench_always (e : Endian) (sh : Bool) (J : ClJunk) (ord : List Nat) (order : Nat → List Nat) (inp : List Byte) (num : Nat)
    (hnum : 0 < num) (hin : inp.length = num * 65536) (hord : ord.Perm (List.range num))
    (horder : ∀ g, (order g).Perm (List.range g)) (hdev : J.dev.length = num * 65536) :
    ∃ sizes, Reports e J inp num (fun i => J.aout + 131072 * i) (fun _ => List.replicate 131072 0) sizes ∧
      clBench e .always sh J ord order inp = .ok ⟨true, some (accumulateInt sizes), inp⟩ := by
  obtain ⟨m, h1, h2, h3, h4, -⟩ := clLoop (clComp_always e J hin) ord
    ⟨List.replicate (num * 131072) 0, List.replicate num 0⟩ (fun i hi => List.mem_range.1 (hord.mem_iff.1 hi))
    (hord.nodup_iff.2 List.nodup_range) List.length_replicate List.length_replicate
    (fun i hi => part_replicate (List.mem_range.1 (hord.mem_iff.1 hi)))
  have hq : ∀ i < num, ∃ n, m.olens[i]? = some n ∧
      Compressed e J inp (fun i => J.aout + 131072 * i) (fun _ => List.replicate 131072 0) i n (part 131072 m.out i) :=
    fun i hi => h4 i (hord.mem_iff.2 (List.mem_range.2 hi))
  refine ⟨m.olens, ⟨h3, fun i hi => ?_⟩, ?_⟩
  · obtain ⟨n, a, b⟩ := hq i hi
    exact ⟨n, _, a, b.1⟩
  have hxl : ((List.range num).map (part 65536 inp)).length = num := by simp
  have hG := horder (oclGlobalSize num)
  obtain ⟨out, l1, l2, -, -⟩ := oclLaunch_ok e .always (by decide) 65536 131072 0 0 m.out none none
    ((List.range num).map (part 65536 inp))
    (fun x hx => by
      obtain ⟨i, hi, rfl⟩ := List.mem_map.1 hx
      exact length_part hin (List.mem_range.1 hi))
    (by decide)
    (fun i x hx => by
      obtain ⟨hi, rfl⟩ := getElem?_parts hx
      have he := part_end hi h2
      have h8 : 8 * (0 / 8 + 131072 / 8 * i) = 131072 * i := by omega
      rw [h8]
      refine ⟨by omega, none, none, rfl, rfl, fun buf hb => ?_⟩
      obtain ⟨n, -, b⟩ := hq i hi
      exact item_always e hin h2 hi b buf hb)
    (if sh then some (clShuffle m.olens) else none) (by rw [hxl]; exact shuffle_ok sh h3)
    (order (oclGlobalSize num)) (by rw [hxl]; exact hG) J.dev (by rw [hxl, hdev]; omega)
  rw [hxl] at l1 l2
  rw [parts_flatten hin, List.take_zero, List.nil_append, List.drop_of_length_le (by omega), List.append_nil] at l2
  have hnum' : inp.length / sampleChunk = num := by
    rw [hin]; exact Nat.mul_div_cancel _ (by decide)
  have hstr : clStride .always = 131072 := rfl
  have hhost : hostNumChunks m.out.length 131072 = num := by rw [h2]; exact hostNumChunks_mul (by decide)
  have hpos : 131072 ≤ m.out.length := by have := Nat.mul_le_mul_right 131072 hnum; omega
  have hread : readBytes (out.buf.take (List.replicate inp.length (0 : Byte)).length) 0 inp.length = some inp := by
    rw [l2, List.length_replicate, List.take_length]
    unfold readBytes
    rw [if_pos (by omega), List.drop_zero, List.take_length]
  unfold clBench
  simp only [hnum', hstr, h1, bind, BRes.bind, hhost]
  unfold clHostDecompress
  simp only [hhost, reduceCtorEq, if_false, decide_false, Bool.false_eq_true, false_and]
  rw [if_neg (by omega)]
  have l1' : oclLaunch e .always sampleChunk 131072 0 0 m.out none none num (if sh = true then some (clShuffle m.olens) else none)
      (order (oclGlobalSize num)) J.dev = some out := l1
  simp only [l1', BRes.access, bind, BRes.bind, hread]
  simp [l2]

theorem packed_loop (e : Endian) {fmt : ClFormat} (hfmt : fmt ≠ .always) (J : ClJunk) (ord : List Nat) {inp : List Byte} {num : Nat}
    (hin : inp.length = num * 65536) (hord : ord.Perm (List.range num)) (htmp : ∀ i < num, (J.tmp i).length = 131072) :
    ∃ m, forEach (clCompChunk e fmt J inp) ord ⟨List.replicate (num * 65536) 0, List.replicate num 0⟩ = .ok m ∧
      m.out.length = num * 65536 ∧ Reports e J inp num J.atmp J.tmp m.olens ∧
      ∀ i < num, ∃ n, Packed e J inp i n (part 65536 m.out i) := by
  obtain ⟨m, h1, h2, h3, h4, -⟩ := clLoop (clComp_packed e hfmt J hin htmp) ord
    ⟨List.replicate (num * 65536) 0, List.replicate num 0⟩ (fun i hi => List.mem_range.1 (hord.mem_iff.1 hi))
    (hord.nodup_iff.2 List.nodup_range) List.length_replicate List.length_replicate
    (fun i hi => part_replicate (List.mem_range.1 (hord.mem_iff.1 hi)))
  refine ⟨m, h1, h2, ⟨h3, fun i hi => ?_⟩, fun i hi => ?_⟩
  · obtain ⟨n, a, t, b, -⟩ := h4 i (hord.mem_iff.2 (List.mem_range.2 hi))
    exact ⟨n, t, a, b.1⟩
  · obtain ⟨n, -, b⟩ := h4 i (hord.mem_iff.2 (List.mem_range.2 hi))
    exact ⟨n, b⟩

theorem clBench_maybe (e : Endian) (sh : Bool) (J : ClJunk) (ord : List Nat) (order : Nat → List Nat) (inp : List Byte) (num : Nat)
    (hnum : 0 < num) (hin : inp.length = num * 65536) (hord : ord.Perm (List.range num))
    (horder : ∀ g, (order g).Perm (List.range g)) (hdev : J.dev.length = num * 65536)
    (htmp : ∀ i < num, (J.tmp i).length = 131072)
    (hm : ∀ i < num, ∀ n t, optsw842Compress e (J.ain + 65536 * i) (J.atmp i) (J.opt i) (J.sw i) (part 65536 inp i) (J.tmp i) =
      .ret none n t → n ≤ 65512 ∨ (part 65536 inp i).take 16 ≠ marker) :
    ∃ sizes, Reports e J inp num J.atmp J.tmp sizes ∧
      clBench e .maybe sh J ord order inp = .ok ⟨true, some (accumulateInt sizes), inp⟩ := by
  obtain ⟨m, h1, h2, h3, hq⟩ := packed_loop e (fmt := .maybe) (by decide) J ord hin hord htmp
  refine ⟨m.olens, h3, ?_⟩
  have hxl : ((List.range num).map (part 65536 inp)).length = num := by simp
  obtain ⟨out, l1, l2, -, -⟩ := oclLaunch_ok e .maybe (by decide) 65536 65536 0 0 m.out none none
    ((List.range num).map (part 65536 inp))
    (fun x hx => by
      obtain ⟨i, hi, rfl⟩ := List.mem_map.1 hx
      exact length_part hin (List.mem_range.1 hi))
    (by decide)
    (fun i x hx => by
      obtain ⟨hi, rfl⟩ := getElem?_parts hx
      have he := part_end hi h2
      have h8 : 8 * (0 / 8 + 65536 / 8 * i) = 65536 * i := by omega
      rw [h8]
      refine ⟨by omega, none, none, rfl, rfl, fun buf hb => ?_⟩
      obtain ⟨n, b⟩ := hq i hi
      obtain ⟨t, hc, -⟩ := id b
      exact item_maybe e hin hi b (hm i hi n t hc.1) buf hb)
    (if sh then some (clShuffle m.olens) else none) (by rw [hxl]; exact shuffle_ok sh h3.1)
    (order (oclGlobalSize num)) (by rw [hxl]; exact horder _) J.dev (by rw [hxl, hdev]; omega)
  rw [hxl] at l1 l2
  rw [parts_flatten hin, List.take_zero, List.nil_append, List.drop_of_length_le (by omega), List.append_nil] at l2
  have hnum' : inp.length / sampleChunk = num := by
    rw [hin]; exact Nat.mul_div_cancel _ (by decide)
  have hstr : clStride .maybe = 65536 := rfl
  have hhost : hostNumChunks m.out.length 65536 = num := by rw [h2]; exact hostNumChunks_mul (by decide)
  have hpos : 65536 ≤ m.out.length := by have := Nat.mul_le_mul_right 65536 hnum; omega
  have hread : readBytes (out.buf.take (List.replicate inp.length (0 : Byte)).length) 0 inp.length = some inp := by
    rw [l2, List.length_replicate, List.take_length]
    unfold readBytes
    rw [if_pos (by omega), List.drop_zero, List.take_length]
  unfold clBench
  simp only [hnum', hstr, h1, bind, BRes.bind, hhost]
  unfold clHostDecompress
  simp only [hhost, reduceCtorEq, if_false, decide_false, Bool.false_eq_true, false_and, true_and]
  rw [if_neg (by rw [List.length_replicate]; omega), if_neg (by omega)]
  have l1' : oclLaunch e .maybe sampleChunk 65536 0 0 m.out none none num (if sh = true then some (clShuffle m.olens) else none)
      (order (oclGlobalSize num)) J.dev = some out := l1
  simp only [l1', BRes.access, bind, BRes.bind, hread]
  simp [l2]

theorem clBench_inplace (e : Endian) (sh : Bool) (J : ClJunk) (ord : List Nat) (order : Nat → List Nat) (inp : List Byte) (num : Nat)
    (hin : inp.length = num * 65536) (hord : ord.Perm (List.range num))
    (horder : ∀ g, (order g).Perm (List.range g)) (htmp : ∀ i < num, (J.tmp i).length = 131072)
    (hm : ∀ i < num, InPlaceRoom e J inp i) :
    ∃ sizes, Reports e J inp num J.atmp J.tmp sizes ∧
      clBench e .inplace sh J ord order inp = .ok ⟨true, some (accumulateInt sizes), inp⟩ := by
  obtain ⟨m, h1, h2, h3, hq⟩ := packed_loop e (fmt := .inplace) (by decide) J ord hin hord htmp
  refine ⟨m.olens, h3, ?_⟩
  have hxl : ((List.range num).map (part 65536 inp)).length = num := by simp
  obtain ⟨out, l1, l2⟩ := oclLaunch_from e .inplace 65536 65536 0 0 [] none none
    ((List.range num).map (part 65536 inp)) ((List.range num).map (part 65536 m.out))
    (fun x hx => by
      obtain ⟨i, hi, rfl⟩ := List.mem_map.1 hx
      exact length_part hin (List.mem_range.1 hi))
    (by simp)
    (fun x hx => by
      obtain ⟨i, hi, rfl⟩ := List.mem_map.1 hx
      exact length_part h2 (List.mem_range.1 hi))
    (by decide)
    (fun i x y hx hy => by
      obtain ⟨hi, rfl⟩ := getElem?_parts hx
      obtain ⟨-, rfl⟩ := getElem?_parts hy
      rw [if_pos rfl]
      refine ⟨rfl, none, none, rfl, rfl, fun buf hb hbt => ?_⟩
      obtain ⟨n, b⟩ := hq i hi
      rw [List.drop_nil]
      exact item_inplace e hin hi b (hm i hi) buf hb hbt)
    (if sh then some (clShuffle m.olens) else none) (by rw [hxl]; exact shuffle_ok sh h3.1)
    (order (oclGlobalSize num)) (by rw [hxl]; exact horder _) [] J.devTail rfl
  rw [hxl, parts_flatten h2, List.nil_append] at l1
  rw [parts_flatten hin, List.nil_append] at l2
  have hnum' : inp.length / sampleChunk = num := by
    rw [hin]; exact Nat.mul_div_cancel _ (by decide)
  have hstr : clStride .inplace = 65536 := rfl
  have hhost : hostNumChunks m.out.length 65536 = num := by rw [h2]; exact hostNumChunks_mul (by decide)
  have hread : readBytes (out.buf.take m.out.length) 0 inp.length = some inp := by
    rw [l2, h2, ← hin, List.take_left]
    unfold readBytes
    rw [if_pos (by omega), List.drop_zero, List.take_length]
  have hbuf : out.buf.take m.out.length = inp := by rw [l2, h2, ← hin, List.take_left]
  unfold clBench
  simp only [hnum', hstr, h1, bind, BRes.bind, hhost]
  unfold clHostDecompress
  simp only [hhost, if_true, decide_true, Bool.true_eq_false, ne_eq, not_true_eq_false, or_self, if_false]
  have l1' : oclLaunch e .inplace sampleChunk 65536 0 0 [] none none num (if sh = true then some (clShuffle m.olens) else none)
      (order (oclGlobalSize num)) (m.out ++ J.devTail) = some out := l1
  simp only [l1', BRes.access, bind, BRes.bind, hread]
  simp [hbuf]

end Lib842
