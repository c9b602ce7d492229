import Verif.Proofs.SwCall
/-!
# The serial codec does not depend on the byte order of the host

Every function that loads or stores words equals its big-endian version.
-/

namespace Lib842
open Spec

theorem load16_swap (e : Endian) (m : List Byte) (i : Nat) :
    (load16 e m i).map (swapBe16 e) = load16 .big m i := by
  cases e
  · unfold load16
    split
    · simp only [Option.map_some, swapBe16, swap16_append]
    · rfl
  · show Option.map id _ = _; exact congrFun Option.map_id _

theorem load32_swap (e : Endian) (m : List Byte) (i : Nat) :
    (load32 e m i).map (swapBe32 e) = load32 .big m i := by
  cases e
  · unfold load32
    split
    · simp only [Option.map_some, swapBe32, swap32_append]
    · rfl
  · show Option.map id _ = _; exact congrFun Option.map_id _

theorem load64_swap (e : Endian) (m : List Byte) (i : Nat) :
    (load64 e m i).map (swapBe64 e) = load64 .big m i := by
  cases e
  · unfold load64
    split
    · simp only [Option.map_some, swapBe64, swap64_append]
    · rfl
  · show Option.map id _ = _; exact congrFun Option.map_id _

theorem load64_of_big {e : Endian} {m : List Byte} {i : Nat} {v : BitVec 64}
    (h : load64 .big m i = some v) : ∃ w, load64 e m i = some w ∧ swapBe64 e w = v := by
  rw [← load64_swap e] at h
  simpa using h

/-! ## Decompressor -/

theorem peekBits_big (e : Endian) (inp : List Byte) (pos bits : Nat) :
    peekBits e inp pos bits = peekBits .big inp pos bits := by
  unfold peekBits
  have h16 : ∀ f : BitVec 16 → BitVec 64, ((load16 e inp pos).map fun v => f (swapBe16 e v)) =
      (load16 .big inp pos).map fun v => f (swapBe16 .big v) := by
    intro f
    rw [← load16_swap e]; simp [Option.map_map, Function.comp_def, swapBe16]
  have h32 : ∀ f : BitVec 32 → BitVec 64, ((load32 e inp pos).map fun v => f (swapBe32 e v)) =
      (load32 .big inp pos).map fun v => f (swapBe32 .big v) := by
    intro f
    rw [← load32_swap e]; simp [Option.map_map, Function.comp_def, swapBe32]
  have h64 : ∀ f : BitVec 64 → BitVec 64, ((load64 e inp pos).map fun v => f (swapBe64 e v)) =
      (load64 .big inp pos).map fun v => f (swapBe64 .big v) := by
    intro f
    rw [← load64_swap e]; simp [Option.map_map, Function.comp_def, swapBe64]
  rw [h16 (fun v => v.setWidth 64 >>> (16 - bits)), h32 (fun v => v.setWidth 64 >>> (32 - bits)),
    h64 (fun v => v >>> (64 - bits))]

theorem nextBitsF_big (e : Endian) (fuel n : Nat) : nextBitsF e fuel n = nextBitsF .big fuel n := by
  induction fuel generalizing n with
  | zero => rfl
  | succ fuel ih =>
    have : nextBitsF e fuel = nextBitsF .big fuel := funext ih
    rw [nextBitsF, nextBitsF, this]
    simp only [peekBits_big e]

theorem nextBits_big (e : Endian) (n : Nat) : nextBits e n = nextBits .big n := nextBitsF_big e _ n

theorem doData_big (e : Endian) (n : Nat) : doData e n = doData .big n := by
  unfold doData
  simp only [nextBits_big e, wordBytes16_swap, wordBytes32_swap, wordBytes64_swap]

theorem doIndex_big (e : Endian) (n : Nat) : doIndex e n = doIndex .big n := by
  unfold doIndex doIndexN
  simp only [nextBits_big e]

theorem doActions_big (e : Endian) (l : List Nat) : doActions e l = doActions .big l := by
  induction l with
  | nil => rfl
  | cons a l ih =>
    rw [doActions, doActions, ih]
    simp only [doData_big e, doIndex_big e]

theorem doShort_big (e : Endian) (k : Nat) : doShort e k = doShort .big k := by
  induction k with
  | zero => rfl
  | succ k ih => rw [doShort, doShort, nextBits_big e, ih]

theorem decompOp_big (e : Endian) (op : Nat) : decompOp e op = decompOp .big op := by
  unfold decompOp doOp
  simp only [nextBits_big e, doShort_big e, doActions_big e]

theorem decompLoop_big (e : Endian) (fuel : Nat) : decompLoop e fuel = decompLoop .big fuel := by
  induction fuel with
  | zero => rfl
  | succ fuel ih =>
    rw [decompLoop, decompLoop, ih]
    simp only [nextBits_big e, decompOp_big e]

theorem sw842Decompress_big (e : Endian) (addr addr' : Nat) (inp buf : List Byte) :
    sw842Decompress e addr inp buf = sw842Decompress .big addr' inp buf := by
  have hres := decompLoop_res .big (8 * inp.length + 1) (decompInit_inv inp buf)
    (by rw [decompInit_rest]; simp; omega)
  have hb := congrFun (decompLoop_big e (8 * inp.length + 1)) (decompInit inp buf)
  generalize hx : decompLoop .big (8 * inp.length + 1) (decompInit inp buf) = x at hres hb
  unfold sw842Decompress
  cases hres with
  | ok hi hl hvs hrest hrun =>
    rw [decompInit_buf] at hl
    rw [decompTail e addr _ hb hi hl, decompTail .big addr' _ hx hi hl, nextBits_big e]
  | err hl =>
    unfold sw842DecompressF decompBody
    rw [M.bind_err hx, M.bind_err hb]
  | ub hvs hrest hrun hub =>
    unfold sw842DecompressF decompBody
    rw [M.bind_def, M.bind_def, hb, hx]

/-! ## Compressor -/

theorem putBits_big (e : Endian) (buf : List Byte) (out bits : Nat) (o d : BitVec 64) :
    putBits e buf out bits o d = putBits .big buf out bits o d := by
  unfold putBits store16 store32 store64
  simp only [wordBytes16_swap, wordBytes32_swap, wordBytes64_swap]

theorem addBitsF_big (e : Endian) (fuel : Nat) : addBitsF e fuel = addBitsF .big fuel := by
  induction fuel with
  | zero => rfl
  | succ fuel ih =>
    funext d n
    rw [addBitsF, addBitsF, ih]
    simp only [putBits_big e]

theorem addBits_big (e : Endian) (d : BitVec 64) (n : Nat) : addBits e d n = addBits .big d n := by
  unfold addBits; rw [addBitsF_big e]

theorem access_map {σ α β γ : Type} (f : σ → Option α) (h : α → γ) (g : γ → M σ β) :
    (M.access f >>= fun a => g (h a)) = (M.access (fun s => (f s).map h) >>= g) := by
  funext s
  rw [M.bind_def, M.bind_def]
  unfold M.access
  cases hs : f s <;> simp [hs]

theorem access32 {β : Type} (e : Endian) (f : Comp → List Byte) (p : Comp → Nat) (g : BitVec 32 → M Comp β) :
    (M.access (fun s => load32 e (f s) (p s)) >>= fun a => g (swapBe32 e a)) =
      (M.access (fun s => load32 .big (f s) (p s)) >>= fun a => g (swapBe32 .big a)) := by
  rw [access_map]
  simp only [load32_swap]
  rfl

theorem access16 {β : Type} (e : Endian) (f : Comp → List Byte) (p : Comp → Nat) (g : BitVec 16 → M Comp β) :
    (M.access (fun s => load16 e (f s) (p s)) >>= fun a => g (swapBe16 e a)) =
      (M.access (fun s => load16 .big (f s) (p s)) >>= fun a => g (swapBe16 .big a)) := by
  rw [access_map]
  simp only [load16_swap]
  rfl

theorem access64 {β : Type} (e : Endian) (f : Comp → List Byte) (p : Comp → Nat) (g : BitVec 64 → M Comp β) :
    (M.access (fun s => load64 e (f s) (p s)) >>= fun a => g (swapBe64 e a)) =
      (M.access (fun s => load64 .big (f s) (p s)) >>= fun a => g (swapBe64 .big a)) := by
  rw [access_map]
  simp only [load64_swap]
  rfl

theorem access64' {β : Type} (e : Endian) (f : Comp → List Byte) (p : Comp → Nat)
    {F G : BitVec 64 → M Comp β} (h : ∀ a, F a = G (swapBe64 e a)) :
    (M.access (fun s => load64 e (f s) (p s)) >>= F) = (M.access (fun s => load64 .big (f s) (p s)) >>= G) := by
  rw [funext h]
  exact access64 e f p G

theorem addActions_big (e : Endian) (l : List Nat) (b : Nat) : addActions e l b = addActions .big l b := by
  induction l generalizing b with
  | nil => rfl
  | cons t l ih =>
    have ih' : addActions e l = addActions .big l := funext ih
    have h : ∀ {β : Type} (p : Comp) (g : Unit → M Comp β),
        (M.access (fun _ => load32 e p.inp (p.pos + 2)) >>= fun d =>
          liftW (addBits e ((swapBe32 e d).setWidth 64) 32) >>= g) =
        (M.access (fun _ => load32 .big p.inp (p.pos + 2)) >>= fun d =>
          liftW (addBits .big ((swapBe32 .big d).setWidth 64) 32) >>= g) := by
      intro β p g
      simp only [addBits_big e]
      exact access32 e (fun _ => p.inp) (fun _ => p.pos + 2)
        (fun d => liftW (addBits .big (d.setWidth 64) 32) >>= g)
    rw [addActions, addActions, ih']
    simp only [h]
    simp only [addBits_big e]

theorem getNextData_big (e : Endian) : getNextData e = getNextData .big := by
  unfold getNextData
  congr 1
  funext p
  have key : ∀ (a : BitVec 64) (b c : BitVec 32) (k l m n : BitVec 16),
      (M.modify fun (q : Comp) => { q with
      data8 := upd q.data8 0 a
      data4 := upd (upd q.data4 0 b) 1 c
      data2 := upd (upd (upd (upd q.data2 0 k) 1 l) 2 m) 3 n }) = (M.modify fun (q : Comp) => { q with
      data8 := upd q.data8 0 a
      data4 := upd (upd q.data4 0 b) 1 c
      data2 := upd (upd (upd (upd q.data2 0 k) 1 l) 2 m) 3 n }) := fun _ _ _ _ _ _ _ => rfl
  let F : BitVec 64 → BitVec 32 → BitVec 32 → BitVec 16 → BitVec 16 → BitVec 16 → BitVec 16 → M Comp Unit :=
    fun a b c k l m n => M.modify fun (q : Comp) => { q with
      data8 := upd q.data8 0 a
      data4 := upd (upd q.data4 0 b) 1 c
      data2 := upd (upd (upd (upd q.data2 0 k) 1 l) 2 m) 3 n }
  show (M.access (fun _ => load64 e p.inp (p.pos + 0)) >>= fun a =>
    M.access (fun _ => load32 e p.inp (p.pos + 0)) >>= fun b =>
    M.access (fun _ => load32 e p.inp (p.pos + 4)) >>= fun c =>
    M.access (fun _ => load16 e p.inp (p.pos + 0)) >>= fun k =>
    M.access (fun _ => load16 e p.inp (p.pos + 2)) >>= fun l =>
    M.access (fun _ => load16 e p.inp (p.pos + 4)) >>= fun m =>
    M.access (fun _ => load16 e p.inp (p.pos + 6)) >>= fun n =>
      F (swapBe64 e a) (swapBe32 e b) (swapBe32 e c) (swapBe16 e k) (swapBe16 e l) (swapBe16 e m)
        (swapBe16 e n)) =
    (M.access (fun _ => load64 .big p.inp (p.pos + 0)) >>= fun a =>
    M.access (fun _ => load32 .big p.inp (p.pos + 0)) >>= fun b =>
    M.access (fun _ => load32 .big p.inp (p.pos + 4)) >>= fun c =>
    M.access (fun _ => load16 .big p.inp (p.pos + 0)) >>= fun k =>
    M.access (fun _ => load16 .big p.inp (p.pos + 2)) >>= fun l =>
    M.access (fun _ => load16 .big p.inp (p.pos + 4)) >>= fun m =>
    M.access (fun _ => load16 .big p.inp (p.pos + 6)) >>= fun n =>
      F (swapBe64 .big a) (swapBe32 .big b) (swapBe32 .big c) (swapBe16 .big k) (swapBe16 .big l)
        (swapBe16 .big m) (swapBe16 .big n))
  clear key
  have h7 := fun a b c k l m => access16 e (fun _ => p.inp) (fun _ => p.pos + 6) (F a b c k l m)
  simp only [h7]
  have h6 := fun a b c k l => access16 e (fun _ => p.inp) (fun _ => p.pos + 4) (fun m =>
    M.access (fun _ => load16 .big p.inp (p.pos + 6)) >>= fun n => F a b c k l m (swapBe16 .big n))
  simp only [h6]
  have h5 := fun a b c k => access16 e (fun _ => p.inp) (fun _ => p.pos + 2) (fun l =>
    M.access (fun _ => load16 .big p.inp (p.pos + 4)) >>= fun m =>
    M.access (fun _ => load16 .big p.inp (p.pos + 6)) >>= fun n =>
      F a b c k l (swapBe16 .big m) (swapBe16 .big n))
  simp only [h5]
  have h4 := fun a b c => access16 e (fun _ => p.inp) (fun _ => p.pos + 0) (fun k =>
    M.access (fun _ => load16 .big p.inp (p.pos + 2)) >>= fun l =>
    M.access (fun _ => load16 .big p.inp (p.pos + 4)) >>= fun m =>
    M.access (fun _ => load16 .big p.inp (p.pos + 6)) >>= fun n =>
      F a b c k (swapBe16 .big l) (swapBe16 .big m) (swapBe16 .big n))
  simp only [h4]
  have h3 := fun a b => access32 e (fun _ => p.inp) (fun _ => p.pos + 4) (fun c =>
    M.access (fun _ => load16 .big p.inp (p.pos + 0)) >>= fun k =>
    M.access (fun _ => load16 .big p.inp (p.pos + 2)) >>= fun l =>
    M.access (fun _ => load16 .big p.inp (p.pos + 4)) >>= fun m =>
    M.access (fun _ => load16 .big p.inp (p.pos + 6)) >>= fun n =>
      F a b c (swapBe16 .big k) (swapBe16 .big l) (swapBe16 .big m) (swapBe16 .big n))
  simp only [h3]
  have h2 := fun a => access32 e (fun _ => p.inp) (fun _ => p.pos + 0) (fun b =>
    M.access (fun _ => load32 .big p.inp (p.pos + 4)) >>= fun c =>
    M.access (fun _ => load16 .big p.inp (p.pos + 0)) >>= fun k =>
    M.access (fun _ => load16 .big p.inp (p.pos + 2)) >>= fun l =>
    M.access (fun _ => load16 .big p.inp (p.pos + 4)) >>= fun m =>
    M.access (fun _ => load16 .big p.inp (p.pos + 6)) >>= fun n =>
      F a b (swapBe32 .big c) (swapBe16 .big k) (swapBe16 .big l) (swapBe16 .big m) (swapBe16 .big n))
  simp only [h2]
  exact access64 e (fun _ => p.inp) (fun _ => p.pos + 0) (fun a =>
    M.access (fun _ => load32 .big p.inp (p.pos + 0)) >>= fun b =>
    M.access (fun _ => load32 .big p.inp (p.pos + 4)) >>= fun c =>
    M.access (fun _ => load16 .big p.inp (p.pos + 0)) >>= fun k =>
    M.access (fun _ => load16 .big p.inp (p.pos + 2)) >>= fun l =>
    M.access (fun _ => load16 .big p.inp (p.pos + 4)) >>= fun m =>
    M.access (fun _ => load16 .big p.inp (p.pos + 6)) >>= fun n =>
      F a (swapBe32 .big b) (swapBe32 .big c) (swapBe16 .big k) (swapBe16 .big l) (swapBe16 .big m)
        (swapBe16 .big n))

theorem addRepeat_big (e : Endian) (r : Nat) : addRepeat e r = addRepeat .big r := by
  unfold addRepeat; simp only [addBits_big e]

theorem addShortBytes_big (e : Endian) (n i : Nat) : addShortBytes e n i = addShortBytes .big n i := by
  induction n generalizing i with
  | zero => rfl
  | succ n ih => rw [addShortBytes, addShortBytes, ih]; simp only [addBits_big e]

theorem addShortData_big (e : Endian) (b : Nat) : addShortData e b = addShortData .big b := by
  unfold addShortData; simp only [addBits_big e, addShortBytes_big e]

theorem processNext_big (e : Endian) : processNext e = processNext .big := by
  unfold processNext addTemplate
  simp only [addBits_big e, addActions_big e]

theorem compStep_big (e : Endian) (next last : BitVec 64) (rc : Nat) :
    compStep e next last rc = compStep .big (swapBe64 e next) (swapBe64 e last) rc := by
  have h1 : (swapBe64 e next = swapBe64 e last) = (next = last) :=
    propext ⟨swapBe64_inj, fun h => by rw [h]⟩
  have h2 : (swapBe64 e next = 0#64) = (next = 0#64) :=
    propext ⟨fun h => swapBe64_inj (e := e) (by rw [h, swapBe64_zero]), fun h => by rw [h, swapBe64_zero]⟩
  unfold compStep
  simp only [h1, h2, addBits_big e, addRepeat_big e, processNext_big e]

theorem compLoop_big (e : Endian) (fuel : Nat) (last : BitVec 64) (rc : Nat) :
    compLoop e fuel last rc = compLoop .big fuel (swapBe64 e last) rc := by
  induction fuel generalizing last rc with
  | zero => rfl
  | succ fuel ih =>
    rw [compLoop, compLoop]
    congr 1
    funext p
    split
    · simp only [ih, getNextData_big e, compStep_big e]
      exact access64 e (fun _ => p.inp) (fun _ => p.pos) (fun next =>
        getNextData .big >>= fun _ => compStep .big next (swapBe64 e last) rc >>= fun rc =>
          updateHashtables >>= fun _ =>
          (M.modify fun p : Comp => { p with pos := p.pos + 8, ilen := p.ilen - 8 }) >>= fun _ =>
          compLoop .big fuel next rc)
    · rfl

theorem swap64_not (x : BitVec 64) : swap64 (~~~ x) = ~~~ swap64 x := by
  have hx : x = x.extractLsb' 56 8 ++ x.extractLsb' 48 8 ++ x.extractLsb' 40 8 ++
      x.extractLsb' 32 8 ++ x.extractLsb' 24 8 ++ x.extractLsb' 16 8 ++ x.extractLsb' 8 8 ++
      x.extractLsb' 0 8 := by
    apply BitVec.eq_of_getLsbD_eq
    intro i hi
    simp only [BitVec.getLsbD_append, BitVec.getLsbD_extractLsb']
    interval_cases i <;> simp
  generalize x.extractLsb' 56 8 = a1, x.extractLsb' 48 8 = a2, x.extractLsb' 40 8 = a3,
    x.extractLsb' 32 8 = a4, x.extractLsb' 24 8 = a5, x.extractLsb' 16 8 = a6,
    x.extractLsb' 8 8 = a7, x.extractLsb' 0 8 = a8 at hx
  subst hx
  have h : (~~~ (a1 ++ a2 ++ a3 ++ a4 ++ a5 ++ a6 ++ a7 ++ a8) : BitVec (8+8+8+8+8+8+8+8)) =
      ~~~ a1 ++ ~~~ a2 ++ ~~~ a3 ++ ~~~ a4 ++ ~~~ a5 ++ ~~~ a6 ++ ~~~ a7 ++ ~~~ a8 := by
    simp only [BitVec.not_append]
  have h' : (~~~ (a8 ++ a7 ++ a6 ++ a5 ++ a4 ++ a3 ++ a2 ++ a1) : BitVec (8+8+8+8+8+8+8+8)) =
      ~~~ a8 ++ ~~~ a7 ++ ~~~ a6 ++ ~~~ a5 ++ ~~~ a4 ++ ~~~ a3 ++ ~~~ a2 ++ ~~~ a1 := by
    simp only [BitVec.not_append]
  rw [swap64_append]
  refine Eq.trans (congrArg swap64 h) ?_
  rw [swap64_append]
  exact h'.symm

theorem swapBe64_not (e : Endian) (x : BitVec 64) : swapBe64 e (~~~ x) = ~~~ swapBe64 e x := by
  cases e
  · exact swap64_not x
  · rfl

theorem sw842Compress_big (e : Endian) (addr addr' : Nat) (j : CompJunk) (inp buf : List Byte) :
    sw842Compress e addr j inp buf = sw842Compress .big addr' j inp buf := by
  have hpre : compPre e addr (inp.length / 8 + 1) inp = compPre .big addr' (inp.length / 8 + 1) inp := by
    unfold compPre
    simp only [compLoop_big e, addBits_big e, addRepeat_big e, addShortData_big e, swapBe64_not,
      crc32be_eq _ _ inp _ (Nat.le_refl _)]
    split
    · rfl
    · exact access64' e (fun p => p.inp) (fun p => p.pos) fun a => rfl
  unfold sw842Compress sw842CompressF
  rw [compBody_eq, compBody_eq, hpre]

end Lib842
