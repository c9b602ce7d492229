import Verif.Model.ClThreads
import Verif.Proofs.Stale
/-!
# Lemmas about concurrent calls of `cl842_decompress` (C112)
-/

namespace Lib842.ClT

/-- How many buffers a call has. -/
def lvl : ClPc → Nat
  | .enter => 0
  | .build => 0
  | .alloc k => k
  | _ => 5

/-- Has the kernel been enqueued? -/
def past : ClPc → Bool
  | .enter => false
  | .build => false
  | .alloc _ => false
  | .upload => false
  | .launch => false
  | _ => true

theorem lvl_past {p : ClPc} (h : past p = true) : lvl p = 5 := by cases p <;> simp_all [past, lvl]

/-- A call whose kernel has not been run. -/
structure Pre (inp buf : List Byte) (mem : Nat → ClBuf) (c : ClCall) : Prop where
  one : 0 < lvl c.pc → hostElements inp.length clWrapperStride = clWrapperElements
  b0 : 0 < lvl c.pc → mem (c.var 0) = .longs [inp.length]
  b1 : 1 < lvl c.pc → mem (c.var 1) = .longs [buf.length]
  b2 : 2 < lvl c.pc → mem (c.var 2) = .ints [none]
  b3 : c.pc = .launch ∨ past c.pc = true → mem (c.var 3) = .bytes inp
  b3s : 3 < lvl c.pc → ∃ l : List Byte, mem (c.var 3) = .bytes l ∧ l.length = inp.length
  b4 : 4 < lvl c.pc → ∃ junk : Nat → Byte, mem (c.var 4) = .bytes ((List.range (max 1 buf.length)).map junk)
  kle : ∀ k, c.pc = .alloc k → k ≤ 4
  out : c.out = buf
  olen : c.olen = buf.length
  res : ∀ x, c.res ≠ some (.value x)
  nfin : c.pc ≠ .finished
  esc : c.res = some .escaped → c.pc = .build

/-- A call whose kernel has been run. -/
structure Post (e : Endian) (inp buf : List Byte) (mem : Nat → ClBuf) (c : ClCall) (n : Nat) (rc : Option Errno) (b : List Byte) : Prop where
  b4 : mem (c.var 4) = .bytes b
  b1 : mem (c.var 1) = .longs [n]
  b2 : mem (c.var 2) = .ints [some rc]
  out : c.out = if c.pc = .wait ∨ c.pc = .getOut then buf else b.take buf.length
  olen : c.olen = if c.pc = .wait ∨ c.pc = .getOut ∨ c.pc = .getSize then buf.length else n
  res : if c.pc = .finished then c.res = some (.value (some rc)) else ∀ x, c.res ≠ some (.value x)
  esc : c.res ≠ some .escaped
  room : buf.length ≤ b.length
  call : ∃ (order : List Nat) (dev : Nat → Byte), order.Perm (List.range 256) ∧ cl842Decompress e order dev inp buf = .ret rc n (b.take buf.length)

/-- Contents of the buffers of a call, and its results. -/
def Cont (e : Endian) (inp buf : List Byte) (mem : Nat → ClBuf) (fin : Nat → Bool) (c : ClCall) : Prop :=
  if (past c.pc && fin c.ev) = true then ∃ n rc b, Post e inp buf mem c n rc b else Pre inp buf mem c

structure Inv (e : Endian) (inp buf : Nat → List Byte) (s : ClState) : Prop where
  lt : ∀ i k, k < lvl (s.th i).pc → (s.th i).var k < s.next
  inj : ∀ i k i' k', k < lvl (s.th i).pc → k' < lvl (s.th i').pc → (s.th i).var k = (s.th i').var k' → i = i' ∧ k = k'
  evlt : ∀ i, past (s.th i).pc = true → (s.th i).ev < s.evs
  evinj : ∀ i i', past (s.th i).pc = true → past (s.th i').pc = true → (s.th i).ev = (s.th i').ev → i = i'
  q : ∀ c ∈ s.queue, ∃ i, past (s.th i).pc = true ∧ c = (s.th i).cmd (hostNumChunks (inp i).length clWrapperStride) (s.th i).ev ∧ s.fin c.ev = false
  qnd : (s.queue.map (·.ev)).Nodup
  pend : ∀ i, past (s.th i).pc = true → s.fin (s.th i).ev = false →
    (s.th i).pc = .wait ∧ (s.th i).cmd (hostNumChunks (inp i).length clWrapperStride) (s.th i).ev ∈ s.queue
  fresh : ∀ v, s.evs ≤ v → s.fin v = false
  cont : ∀ i, Cont e (inp i) (buf i) s.mem s.fin (s.th i)

theorem set_same (s : ClState) (i : Nat) (c : ClCall) : (s.set i c).th i = c := by simp [ClState.set]
theorem set_other (s : ClState) {i j : Nat} (c : ClCall) (h : j ≠ i) : (s.set i c).th j = s.th j := by simp [ClState.set, h]

theorem pre_mem {inp buf : List Byte} {mem mem' : Nat → ClBuf} {c : ClCall} (h : ∀ k, k < lvl c.pc → mem' (c.var k) = mem (c.var k))
    (hp : Pre inp buf mem c) : Pre inp buf mem' c := by
  refine { one := hp.one, b0 := ?_, b1 := ?_, b2 := ?_, b3 := ?_, b3s := ?_, b4 := ?_, kle := hp.kle, out := hp.out, olen := hp.olen, res := hp.res, nfin := hp.nfin, esc := hp.esc }
  · intro hl; rw [h 0 hl]; exact hp.b0 hl
  · intro hl; rw [h 1 hl]; exact hp.b1 hl
  · intro hl; rw [h 2 hl]; exact hp.b2 hl
  · intro hl
    have h5 : lvl c.pc = 5 := by
      rcases hl with hl | hl
      · rw [hl]; rfl
      · exact lvl_past hl
    rw [h 3 (by omega)]; exact hp.b3 hl
  · intro hl; rw [h 3 hl]; exact hp.b3s hl
  · intro hl; rw [h 4 hl]; exact hp.b4 hl

theorem cont_mem {e : Endian} {inp buf : List Byte} {mem mem' : Nat → ClBuf} {fin fin' : Nat → Bool} {c : ClCall}
    (h : ∀ k, k < lvl c.pc → mem' (c.var k) = mem (c.var k)) (hf : past c.pc = true → fin' c.ev = fin c.ev)
    (hp : Cont e inp buf mem fin c) : Cont e inp buf mem' fin' c := by
  unfold Cont at hp ⊢
  cases hpa : past c.pc with
  | false =>
    rw [hpa] at hp
    simp only [Bool.false_and, Bool.false_eq_true, if_false] at hp ⊢
    exact pre_mem h hp
  | true =>
    have h5 := lvl_past hpa
    rw [hpa, Bool.true_and] at hp
    rw [Bool.true_and, hf hpa]
    split at hp
    · rename_i h1
      rw [if_pos h1]
      obtain ⟨n, rc, b, hp⟩ := hp
      refine ⟨n, rc, b, ⟨?_, ?_, ?_, hp.out, hp.olen, hp.res, hp.esc, hp.room, hp.call⟩⟩
      · rw [h 4 (by omega)]; exact hp.b4
      · rw [h 1 (by omega)]; exact hp.b1
      · rw [h 2 (by omega)]; exact hp.b2
    · rename_i h1
      rw [if_neg h1]
      exact pre_mem h hp

/-- A step of one call that leaves the queue alone. -/
theorem Inv.update {e : Endian} {inp buf : Nat → List Byte} {s s' : ClState} {i : Nat} (h : Inv e inp buf s)
    (hq : s'.queue = s.queue) (hf : s'.fin = s.fin) (he : s'.evs = s.evs) (hn : s.next ≤ s'.next)
    (hth : ∀ j, j ≠ i → s'.th j = s.th j)
    (hmem : ∀ j, j ≠ i → ∀ k, k < lvl (s.th j).pc → s'.mem ((s.th j).var k) = s.mem ((s.th j).var k))
    (hl : lvl (s'.th i).pc ≤ lvl (s.th i).pc + 1)
    (hv : ∀ k, k < lvl (s'.th i).pc → (k < lvl (s.th i).pc ∧ (s'.th i).var k = (s.th i).var k) ∨
      (lvl (s.th i).pc ≤ k ∧ (s'.th i).var k = s.next ∧ s.next < s'.next))
    (hp : past (s'.th i).pc = past (s.th i).pc) (hev : (s'.th i).ev = (s.th i).ev)
    (hw : (s'.th i).pc = (s.th i).pc ∨ (past (s.th i).pc = true → s.fin (s.th i).ev = true))
    (hc : Cont e (inp i) (buf i) s'.mem s'.fin (s'.th i)) : Inv e inp buf s' := by
  have hcmd : past (s.th i).pc = true → ∀ n ev, (s'.th i).cmd n ev = (s.th i).cmd n ev := by
    intro hpa n ev
    have h5 := lvl_past hpa
    have h5' := lvl_past (hp.trans hpa)
    have hk : ∀ k, k < 5 → (s'.th i).var k = (s.th i).var k := by
      intro k hk
      rcases hv k (by omega) with ⟨_, h⟩ | ⟨h, _⟩
      · exact h
      · omega
    simp only [ClCall.cmd, hk 0 (by omega), hk 1 (by omega), hk 2 (by omega), hk 3 (by omega), hk 4 (by omega)]
  refine { lt := ?_, inj := ?_, evlt := ?_, evinj := ?_, q := ?_, qnd := ?_, pend := ?_, fresh := ?_, cont := ?_ }
  · intro j k hk
    by_cases hj : j = i
    · subst hj
      rcases hv k hk with ⟨h1, h2⟩ | ⟨_, h2, h3⟩
      · rw [h2]; exact Nat.lt_of_lt_of_le (h.lt j k h1) hn
      · rw [h2]; exact h3
    · rw [hth j hj] at hk ⊢
      exact Nat.lt_of_lt_of_le (h.lt j k hk) hn
  · intro j k j' k' hk hk' hjj
    by_cases hj : j = i
    · subst hj
      by_cases hj' : j' = j
      · subst hj'
        refine ⟨rfl, ?_⟩
        rcases hv k hk with ⟨h1, h2⟩ | ⟨h1, h2, h3⟩ <;> rcases hv k' hk' with ⟨h1', h2'⟩ | ⟨h1', h2', h3'⟩
        · rw [h2, h2'] at hjj
          exact (h.inj _ k _ k' h1 h1' hjj).2
        · have := h.lt _ k h1
          rw [h2, h2'] at hjj; omega
        · have := h.lt _ k' h1'
          rw [h2, h2'] at hjj; omega
        · omega
      · rw [hth j' hj'] at hk' hjj
        rcases hv k hk with ⟨h1, h2⟩ | ⟨h1, h2, h3⟩
        · rw [h2] at hjj
          exact h.inj _ _ _ _ h1 hk' hjj
        · have := h.lt _ k' hk'
          omega
    · rw [hth j hj] at hk hjj
      by_cases hj' : j' = i
      · subst hj'
        rcases hv k' hk' with ⟨h1, h2⟩ | ⟨h1, h2, h3⟩
        · rw [h2] at hjj
          exact h.inj _ _ _ _ hk h1 hjj
        · have := h.lt _ k hk
          omega
      · rw [hth j' hj'] at hk' hjj
        exact h.inj _ _ _ _ hk hk' hjj
  · intro j hj
    rw [he]
    by_cases hji : j = i
    · subst hji; rw [hev]; exact h.evlt _ (hp ▸ hj)
    · rw [hth j hji] at hj ⊢; exact h.evlt _ hj
  · have hall : ∀ j, past (s'.th j).pc = past (s.th j).pc ∧ (s'.th j).ev = (s.th j).ev := by
      intro j
      by_cases hji : j = i
      · subst hji; exact ⟨hp, hev⟩
      · rw [hth j hji]; exact ⟨rfl, rfl⟩
    intro j j' h1 h2 h3
    rw [(hall j).1] at h1; rw [(hall j').1] at h2; rw [(hall j).2, (hall j').2] at h3
    exact h.evinj _ _ h1 h2 h3
  · intro c hcq
    rw [hq] at hcq
    obtain ⟨j, h1, h2, h3⟩ := h.q c hcq
    rw [hf]
    refine ⟨j, ?_, ?_, h3⟩
    · by_cases hji : j = i
      · subst hji; rw [hp]; exact h1
      · rw [hth j hji]; exact h1
    · by_cases hji : j = i
      · subst hji; rw [hcmd h1, hev]; exact h2
      · rw [hth j hji]; exact h2
  · rw [hq]; exact h.qnd
  · intro j h1 h2
    rw [hf] at h2
    rw [hq]
    by_cases hji : j = i
    · subst hji
      rw [hp] at h1; rw [hev] at h2
      rcases hw with hw | hw
      · rw [hw, hcmd h1, hev]; exact h.pend _ h1 h2
      · rw [hw h1] at h2; cases h2
    · rw [hth j hji] at h1 h2 ⊢
      exact h.pend _ h1 h2
  · rw [he, hf]; exact h.fresh
  · intro j
    by_cases hji : j = i
    · subst hji; exact hc
    · rw [hth j hji]
      exact cont_mem (hmem j hji) (fun _ => by rw [hf]) (h.cont j)

theorem cont_pre {e : Endian} {inp buf : List Byte} {mem : Nat → ClBuf} {fin : Nat → Bool} {c : ClCall}
    (h : Cont e inp buf mem fin c) (hp : past c.pc = false ∨ fin c.ev = false) : Pre inp buf mem c := by
  unfold Cont at h
  rwa [if_neg (by rcases hp with hp | hp <;> simp [hp])] at h

theorem cont_post {e : Endian} {inp buf : List Byte} {mem : Nat → ClBuf} {fin : Nat → Bool} {c : ClCall}
    (h : Cont e inp buf mem fin c) (hp : past c.pc = true) (hf : fin c.ev = true) : ∃ n rc b, Post e inp buf mem c n rc b := by
  unfold Cont at h
  rwa [if_pos (by simp [hp, hf])] at h

theorem pre_cont {e : Endian} {inp buf : List Byte} {mem : Nat → ClBuf} {fin : Nat → Bool} {c : ClCall}
    (h : Pre inp buf mem c) (hp : past c.pc = false ∨ fin c.ev = false) : Cont e inp buf mem fin c := by
  unfold Cont
  rwa [if_neg (by rcases hp with hp | hp <;> simp [hp])]

theorem post_cont {e : Endian} {inp buf : List Byte} {mem : Nat → ClBuf} {fin : Nat → Bool} {c : ClCall} {n : Nat} {rc : Option Errno} {b : List Byte}
    (h : Post e inp buf mem c n rc b) (hp : past c.pc = true) (hf : fin c.ev = true) : Cont e inp buf mem fin c := by
  unfold Cont
  rw [if_pos (by simp [hp, hf])]
  exact ⟨n, rc, b, h⟩

/-- The kernel of a call with one chunk: undefined exactly if the sequential call is. -/
theorem launch_shape (e : Endian) (inp buf db : List Byte) (order : List Nat) (horder : order.Perm (List.range 256)) (r : ClOut)
    (h : oclLaunch e .always 65536 clWrapperStride 0 0 inp (some [inp.length]) (some [buf.length]) 1 none order db = some r) :
    ∃ b n rc, r = ⟨b, [(0, n)], [(0, rc)]⟩ ∧ b.length = db.length := by
  have hskip : ∀ g (s : ClOut), g ≠ 0 →
      oclWorkItem e .always 65536 clWrapperStride 0 0 inp (some [inp.length]) (some [buf.length]) 1 none g s = some s := by
    intro g s hg
    unfold oclWorkItem
    rw [if_pos (by omega)]
  have hfold : ∀ (l : List Nat), 0 ∉ l → ∀ s : ClOut, l.foldlM (fun s gid => oclWorkItem e .always 65536 clWrapperStride 0 0
      inp (some [inp.length]) (some [buf.length]) 1 none gid s) s = some s := by
    intro l
    induction l with
    | nil => intro _ s; rfl
    | cons g l ih =>
      intro hl s
      rw [List.foldlM_cons, hskip g s (by rintro rfl; exact hl (List.mem_cons_self ..))]
      exact ih (fun h => hl (List.mem_cons_of_mem _ h)) s
  have hmem : 0 ∈ order := horder.mem_iff.2 (by decide)
  have hnd : order.Nodup := horder.nodup_iff.2 List.nodup_range
  obtain ⟨l1, l2, rfl⟩ := List.append_of_mem hmem
  have hl1 : 0 ∉ l1 := fun h => (List.nodup_append.1 hnd).2.2 0 h 0 (List.mem_cons_self ..) rfl
  have hl2 : 0 ∉ l2 := (List.nodup_cons.1 (List.nodup_append.1 hnd).2.1).1
  have hlaunch : oclLaunch e .always 65536 clWrapperStride 0 0 inp (some [inp.length]) (some [buf.length]) 1 none
      (l1 ++ 0 :: l2) db = oclChunk e .always 65536 clWrapperStride 0 0 inp (some [inp.length]) (some [buf.length]) 0
        ⟨db, [], []⟩ := by
    unfold oclLaunch
    simp only [List.foldlM_append, List.foldlM_cons, hfold l1 hl1, Option.bind_eq_bind, Option.bind_some]
    have : oclWorkItem e .always 65536 clWrapperStride 0 0 inp (some [inp.length]) (some [buf.length]) 1 none 0
        ⟨db, [], []⟩ = oclChunk e .always 65536 clWrapperStride 0 0 inp (some [inp.length]) (some [buf.length]) 0
        ⟨db, [], []⟩ := by
      unfold oclWorkItem
      rw [if_neg (by decide)]
    rw [this]
    cases oclChunk e .always 65536 clWrapperStride 0 0 inp (some [inp.length]) (some [buf.length]) 0 ⟨db, [], []⟩ with
    | none => rfl
    | some s => exact hfold l2 hl2 s
  rw [hlaunch] at h
  unfold oclChunk at h
  simp only at h
  split at h
  · cases h
  · simp only [optAt, List.getElem?_cons_zero, Option.map_some] at h
    split at h
    · rename_i rc n b hit
      simp only [Option.some.injEq] at h
      have hst := ocl_stale e (inp.drop (8 * (0 / 8 + clWrapperStride / 8 * 0))) 0 inp.length buf.length db.length
      have hit' : oclCore e (some (inp.drop (8 * (0 / 8 + clWrapperStride / 8 * 0)))) 0 inp.length db buf.length = .ret rc n b := hit
      refine ⟨_, _, _, h.symm, ?_⟩
      have hb : b.length = db.length := by
        rcases hst with h1 | h1 | ⟨r', n', w, hw, -, h1⟩
        · rw [show oclCore e (some (inp.drop (8 * (0 / 8 + clWrapperStride / 8 * 0)))) 0 inp.length db buf.length = .ub from h1 db rfl] at hit'; cases hit'
        · rw [show oclCore e (some (inp.drop (8 * (0 / 8 + clWrapperStride / 8 * 0)))) 0 inp.length db buf.length = .timeout from h1 db rfl] at hit'; cases hit'
        · rw [show oclCore e (some (inp.drop (8 * (0 / 8 + clWrapperStride / 8 * 0)))) 0 inp.length db buf.length = _ from h1 db rfl] at hit'
          cases hit'
          simp; omega
      simp [hb]
    · cases h

/-- The device runs the kernel of a call. -/
theorem run_spec (e : Endian) (inp buf : List Byte) (mem : Nat → ClBuf) (c : ClCall) (order : List Nat) (ev : Nat)
    (hp : Pre inp buf mem c) (hpa : past c.pc = true)
    (hord : order.Perm (List.range (oclGlobalSize (hostNumChunks inp.length clWrapperStride)))) :
    ∃ dev : Nat → Byte, order.Perm (List.range 256) ∧
      ((clRun e order (c.cmd (hostNumChunks inp.length clWrapperStride) ev) mem = none ∧ cl842Decompress e order dev inp buf = .ub) ∨
      ∃ n rc b, cl842Decompress e order dev inp buf = .ret rc n (b.take buf.length) ∧ buf.length ≤ b.length ∧
        clRun e order (c.cmd (hostNumChunks inp.length clWrapperStride) ev) mem = some fun h =>
          if h = c.var 4 then .bytes b else if h = c.var 1 then .longs [n] else if h = c.var 2 then .ints [some rc] else mem h) := by
  have h5 := lvl_past hpa
  obtain ⟨dev, hdev⟩ := hp.b4 (by omega)
  have hone := hp.one (by omega)
  have hn : hostNumChunks inp.length clWrapperStride = 1 := hone
  rw [hn] at hord ⊢
  have hord' : order.Perm (List.range 256) := hord
  refine ⟨dev, hord', ?_⟩
  unfold clRun cl842Decompress
  simp only [ClCall.cmd, hp.b0 (by omega), hp.b1 (by omega), hp.b2 (by omega), hp.b3 (.inr hpa), hdev, hn]
  rw [if_neg (by simp [hone])]
  cases hr : oclLaunch e .always 65536 clWrapperStride 0 0 inp (some [inp.length]) (some [buf.length]) 1 none order ((List.range (max 1 buf.length)).map dev) with
  | none => left; exact ⟨rfl, rfl⟩
  | some r =>
    right
    obtain ⟨b, n, rc, rfl, hb⟩ := launch_shape e inp buf _ order hord' r hr
    exact ⟨n, rc, b, rfl, by simp at hb; omega, rfl⟩

theorem inv_step {e : Endian} {inp buf : Nat → List Byte} {s s' : ClState} {l : ClLab} (h : Inv e inp buf s) (hs : ClStep e inp buf s s' l) :
    Inv e inp buf s' := by
  cases hs with
  | @begin i hr hpc ho =>
    have hp := cont_pre (h.cont i) (.inl (by rw [hpc]; rfl))
    refine h.update (i := i) rfl rfl rfl (Nat.le_refl _) (fun j hj => set_other _ _ hj) (fun _ _ _ _ => rfl) ?_ ?_ ?_ ?_ ?_ ?_ <;>
      rw [set_same]
    · simp [lvl]
    · intro k hk; simp [lvl] at hk
    · rw [hpc]; rfl
    · exact .inr (by rw [hpc]; simp [past])
    · refine pre_cont ?_ (.inl rfl)
      exact { one := by simp [lvl], b0 := by simp [lvl], b1 := by simp [lvl], b2 := by simp [lvl], b3 := by simp [past], b3s := by simp [lvl], b4 := by simp [lvl],
              kle := by simp, out := hp.out, olen := hp.olen, res := hp.res, nfin := by simp, esc := by simp }
  | @pass i hr hpc ho =>
    have hp := cont_pre (h.cont i) (.inl (by rw [hpc]; rfl))
    refine h.update (i := i) rfl rfl rfl (Nat.le_refl _) (fun j hj => set_other _ _ hj) (fun _ _ _ _ => rfl) ?_ ?_ ?_ ?_ ?_ ?_ <;>
      rw [set_same]
    · simp [lvl]
    · intro k hk; simp [lvl] at hk
    · rw [hpc]; rfl
    · exact .inr (by rw [hpc]; simp [past])
    · refine pre_cont ?_ (.inl rfl)
      exact { one := by simp [lvl], b0 := by simp [lvl], b1 := by simp [lvl], b2 := by simp [lvl], b3 := by simp [past], b3s := by simp [lvl], b4 := by simp [lvl],
              kle := by simp, out := hp.out, olen := hp.olen, res := hp.res, nfin := by simp, esc := by simp [hr] }
  | @built i hr hpc =>
    have hp := cont_pre (h.cont i) (.inl (by rw [hpc]; rfl))
    refine h.update (i := i) rfl rfl rfl (Nat.le_refl _) (fun j hj => set_other _ _ hj) (fun _ _ _ _ => rfl) ?_ ?_ ?_ ?_ ?_ ?_ <;>
      rw [set_same]
    · simp [lvl]
    · intro k hk; simp [lvl] at hk
    · rw [hpc]; rfl
    · exact .inr (by rw [hpc]; simp [past])
    · refine pre_cont ?_ (.inl rfl)
      exact { one := by simp [lvl], b0 := by simp [lvl], b1 := by simp [lvl], b2 := by simp [lvl], b3 := by simp [past], b3s := by simp [lvl], b4 := by simp [lvl],
              kle := by simp, out := hp.out, olen := hp.olen, res := hp.res, nfin := by simp, esc := by simp [hr] }
  | @escape i hr hpc =>
    have hp := cont_pre (h.cont i) (.inl (by rw [hpc]; rfl))
    refine h.update (i := i) rfl rfl rfl (Nat.le_refl _) (fun j hj => set_other _ _ hj) (fun _ _ _ _ => rfl) ?_ ?_ ?_ ?_ ?_ ?_ <;>
      rw [set_same]
    · simp
    · intro k hk; exact .inl ⟨hk, rfl⟩
    · exact .inl rfl
    · refine pre_cont ?_ (.inl (by show past (s.th i).pc = false; rw [hpc]; rfl))
      exact { one := hp.one, b0 := hp.b0, b1 := hp.b1, b2 := hp.b2, b3 := hp.b3, b3s := hp.b3s, b4 := hp.b4,
              kle := hp.kle, out := hp.out, olen := hp.olen, res := by simp, nfin := hp.nfin, esc := fun _ => hpc }
  | @alloc i k junk b hr hpc hb =>
    have hp := cont_pre (h.cont i) (.inl (by rw [hpc]; rfl))
    have hk4 := hp.kle k hpc
    have hlv : lvl (s.th i).pc = k := by rw [hpc]; rfl
    have hlv' : lvl (if k = 4 then ClPc.upload else .alloc (k + 1)) = k + 1 := by
      split
      · rename_i hk; rw [hk]; rfl
      · rfl
    have hpa' : past (if k = 4 then ClPc.upload else .alloc (k + 1)) = false := by
      split <;> rfl
    refine h.update (i := i) rfl rfl rfl (Nat.le_succ _) (fun j hj => set_other _ _ hj) ?_ ?_ ?_ ?_ ?_ ?_ ?_ <;>
      try rw [set_same]
    · intro j hj k' hk'
      have := h.lt j k' hk'
      show (if _ = _ then _ else _) = _
      rw [if_neg (by omega)]
    · show lvl (if k = 4 then ClPc.upload else .alloc (k + 1)) ≤ _
      omega
    · intro k' hk'
      replace hk' : k' < lvl (if k = 4 then ClPc.upload else .alloc (k + 1)) := hk'
      show (_ ∧ (if k' = k then s.next else (s.th i).var k') = _) ∨ (_ ∧ (if k' = k then s.next else (s.th i).var k') = _ ∧ s.next < s.next + 1)
      by_cases hkk : k' = k
      · right; rw [if_pos hkk]; exact ⟨by omega, rfl, by omega⟩
      · left; rw [if_neg hkk]; exact ⟨by omega, rfl⟩
    · show past (if k = 4 then ClPc.upload else .alloc (k + 1)) = _
      rw [hpa', hpc]; rfl
    · exact .inr (by rw [hpc]; simp [past])
    · refine pre_cont ?_ (.inl hpa')
      have hold : ∀ k', k' < k → (fun h' => if h' = s.next then b else s.mem h') ((fun k' => if k' = k then s.next else (s.th i).var k') k') = s.mem ((s.th i).var k') := by
        intro k' hk'
        have := h.lt i k' (by omega)
        show (if (if k' = k then s.next else (s.th i).var k') = s.next then b else s.mem (if k' = k then s.next else (s.th i).var k')) = _
        rw [if_neg (by omega : ¬ k' = k), if_neg (by omega)]
      have hnew : (fun h' => if h' = s.next then b else s.mem h') ((fun k' => if k' = k then s.next else (s.th i).var k') k) = b := by
        show (if (if k = k then s.next else _) = s.next then b else _) = b
        rw [if_pos rfl, if_pos rfl]
      refine { one := ?_, b0 := ?_, b1 := ?_, b2 := ?_, b3 := ?_, b3s := ?_, b4 := ?_, kle := ?_, out := hp.out, olen := hp.olen, res := hp.res, nfin := ?_, esc := by simp [hr] }
      · intro _
        rcases Nat.eq_zero_or_pos k with rfl | hk
        · simp only [clNew] at hb
          split at hb
          · assumption
          · cases hb
        · exact hp.one (by omega)
      · intro _
        rcases Nat.eq_zero_or_pos k with rfl | hk
        · refine hnew.trans ?_
          simp only [clNew] at hb
          split at hb
          · cases hb; rfl
          · cases hb
        · exact (hold 0 hk).trans (hp.b0 (by omega))
      · intro hl
        replace hl : 1 < lvl (if k = 4 then ClPc.upload else .alloc (k + 1)) := hl
        by_cases hk : k = 1
        · subst hk
          refine hnew.trans ?_
          simp only [clNew] at hb
          split at hb
          · cases hb; rfl
          · cases hb
        · exact (hold 1 (by omega)).trans (hp.b1 (by omega))
      · intro hl
        replace hl : 2 < lvl (if k = 4 then ClPc.upload else .alloc (k + 1)) := hl
        by_cases hk : k = 2
        · subst hk
          refine hnew.trans ?_
          simp only [clNew] at hb
          split at hb
          · cases hb
          · cases hb
            rw [show hostElements (inp i).length clWrapperStride = 1 from hp.one (by omega)]; rfl
        · exact (hold 2 (by omega)).trans (hp.b2 (by omega))
      · intro hl
        exfalso
        replace hl : (if k = 4 then ClPc.upload else .alloc (k + 1)) = .launch ∨ past (if k = 4 then ClPc.upload else .alloc (k + 1)) = true := hl
        rw [hpa'] at hl
        split at hl <;> simp at hl
      · intro hl
        replace hl : 3 < lvl (if k = 4 then ClPc.upload else .alloc (k + 1)) := hl
        by_cases hk : k = 3
        · subst hk
          simp only [clNew] at hb
          split at hb
          · cases hb
          · cases hb
            exact ⟨_, hnew, by simp⟩
        · obtain ⟨l, hl1, hl2⟩ := hp.b3s (by omega)
          exact ⟨l, (hold 3 (by omega)).trans hl1, hl2⟩
      · intro hl
        replace hl : 4 < lvl (if k = 4 then ClPc.upload else .alloc (k + 1)) := hl
        have hk : k = 4 := by omega
        subst hk
        refine ⟨junk, hnew.trans ?_⟩
        simp only [clNew] at hb
        cases hb; rfl
      · intro k' hk'
        replace hk' : (if k = 4 then ClPc.upload else .alloc (k + 1)) = .alloc k' := hk'
        split at hk'
        · cases hk'
        · cases hk'; omega
      · show (if k = 4 then ClPc.upload else .alloc (k + 1)) ≠ _
        split <;> simp
  | @upload i l hr hpc hl hle =>
    have hp := cont_pre (h.cont i) (.inl (by rw [hpc]; rfl))
    have hlv : lvl (s.th i).pc = 5 := by rw [hpc]; rfl
    have hnew : inp i ++ l.drop (inp i).length = inp i := by
      obtain ⟨l', hl1, hl2⟩ := hp.b3s (by omega)
      rw [hl] at hl1
      cases hl1
      rw [List.drop_of_length_le (by omega), List.append_nil]
    rw [hnew]
    have hne : ∀ j k, k < lvl (s.th j).pc → (j ≠ i ∨ k ≠ 3) → (s.th j).var k ≠ (s.th i).var 3 := by
      intro j k hk hjk heq
      have := h.inj j k i 3 hk (by omega) heq
      omega
    refine h.update (i := i) rfl rfl rfl (Nat.le_refl _) (fun j hj => set_other _ _ hj) ?_ ?_ ?_ ?_ ?_ ?_ ?_ <;>
      try rw [set_same]
    · intro j hj k hk
      show (if _ = _ then _ else _) = _
      rw [if_neg (hne j k hk (.inl hj))]
    · rw [hlv]; simp [lvl]
    · intro k hk; left; rw [hlv]; exact ⟨hk, rfl⟩
    · rw [hpc]; rfl
    · exact .inr (by rw [hpc]; simp [past])
    · refine pre_cont ?_ (.inl rfl)
      have hold : ∀ k, k < 5 → k ≠ 3 → (fun h' => if h' = (s.th i).var 3 then ClBuf.bytes (inp i) else s.mem h') ((s.th i).var k) = s.mem ((s.th i).var k) := by
        intro k hk h3
        show (if _ = _ then _ else _) = _
        rw [if_neg (hne i k (by omega) (.inr h3))]
      refine { one := fun _ => hp.one (by omega), b0 := fun _ => (hold 0 (by omega) (by omega)).trans (hp.b0 (by omega)),
               b1 := fun _ => (hold 1 (by omega) (by omega)).trans (hp.b1 (by omega)), b2 := fun _ => (hold 2 (by omega) (by omega)).trans (hp.b2 (by omega)),
               b3 := ?_, b3s := ?_, b4 := ?_, kle := by simp, out := hp.out, olen := hp.olen, res := hp.res, nfin := by simp, esc := by simp [hr] }
      · intro _
        show (if _ = _ then _ else _) = _
        rw [if_pos rfl]
      · intro _
        refine ⟨inp i, ?_, rfl⟩
        show (if _ = _ then _ else _) = _
        rw [if_pos rfl]
      · intro _
        obtain ⟨junk, hj⟩ := hp.b4 (by omega)
        exact ⟨junk, (hold 4 (by omega) (by omega)).trans hj⟩
  | @launch i hr hpc =>
    have hp := cont_pre (h.cont i) (.inl (by rw [hpc]; rfl))
    have hlv : lvl (s.th i).pc = 5 := by rw [hpc]; rfl
    have hnp : past (s.th i).pc = false := by rw [hpc]; rfl
    obtain ⟨S, hS⟩ : ∃ S : ClState, S = ({ s with evs := s.evs + 1, queue := s.queue ++ [(s.th i).cmd (hostNumChunks (inp i).length clWrapperStride) s.evs] } : ClState).set i { s.th i with pc := .wait, ev := s.evs } := ⟨_, rfl⟩
    rw [← hS]
    have hi : S.th i = { s.th i with pc := .wait, ev := s.evs } := by rw [hS]; exact set_same ..
    have hj : ∀ j, j ≠ i → S.th j = s.th j := by intro j hj; rw [hS]; exact set_other _ _ hj
    have hvl : ∀ j, (S.th j).var = (s.th j).var ∧ lvl (S.th j).pc = lvl (s.th j).pc := by
      intro j
      by_cases hji : j = i
      · subst hji; rw [hi, hlv]; exact ⟨rfl, rfl⟩
      · rw [hj j hji]; exact ⟨rfl, rfl⟩
    have hm : S.mem = s.mem := by rw [hS]; rfl
    have hfi : S.fin = s.fin := by rw [hS]; rfl
    have hev : S.evs = s.evs + 1 := by rw [hS]; rfl
    have hqu : S.queue = s.queue ++ [(s.th i).cmd (hostNumChunks (inp i).length clWrapperStride) s.evs] := by rw [hS]; rfl
    have hpast : ∀ j, j ≠ i → past (S.th j).pc = true → (S.th j).ev < s.evs := by
      intro j hji hpa; rw [hj j hji] at hpa ⊢; exact h.evlt j hpa
    refine { lt := ?_, inj := ?_, evlt := ?_, evinj := ?_, q := ?_, qnd := ?_, pend := ?_, fresh := ?_, cont := ?_ }
    · intro j k hk
      rw [(hvl j).2] at hk
      rw [(hvl j).1, show S.next = s.next by rw [hS]; rfl]
      exact h.lt j k hk
    · intro j k j' k' hk hk' he
      rw [(hvl j).2] at hk; rw [(hvl j').2] at hk'; rw [(hvl j).1, (hvl j').1] at he
      exact h.inj _ _ _ _ hk hk' he
    · intro j hpa
      rw [hev]
      by_cases hji : j = i
      · subst hji; rw [hi]; exact Nat.lt_succ_self _
      · have := hpast j hji hpa; omega
    · intro j j' h1 h2 he
      by_cases hji : j = i
      · by_cases hji' : j' = i
        · rw [hji, hji']
        · have := hpast j' hji' h2
          subst hji; rw [hi] at he
          replace he : s.evs = (S.th j').ev := he
          omega
      · by_cases hji' : j' = i
        · have := hpast j hji h1
          subst hji'; rw [hi] at he
          replace he : (S.th j).ev = s.evs := he
          omega
        · rw [hj j hji] at h1 he; rw [hj j' hji'] at h2 he
          exact h.evinj _ _ h1 h2 he
    · intro c hc
      rw [hqu, List.mem_append] at hc
      rw [hfi]
      rcases hc with hc | hc
      · obtain ⟨j, h1, h2, h3⟩ := h.q c hc
        have hji : j ≠ i := by rintro rfl; rw [hnp] at h1; cases h1
        exact ⟨j, by rw [hj j hji]; exact h1, by rw [hj j hji]; exact h2, h3⟩
      · rw [List.mem_singleton] at hc
        subst hc
        refine ⟨i, by rw [hi]; rfl, by rw [hi]; rfl, ?_⟩
        exact h.fresh _ (Nat.le_refl _)
    · rw [hqu, List.map_append, List.nodup_append]
      refine ⟨h.qnd, by simp, ?_⟩
      intro a ha b hb hab
      obtain ⟨c, hc, rfl⟩ := List.mem_map.1 ha
      obtain ⟨j, h1, h2, h3⟩ := h.q c hc
      have := h.evlt j h1
      simp only [List.map_cons, List.map_nil, List.mem_singleton] at hb
      replace hb : b = s.evs := hb
      rw [h2] at hab
      replace hab : (s.th j).ev = b := hab
      omega
    · intro j h1 h2
      rw [hfi] at h2
      rw [hqu]
      by_cases hji : j = i
      · subst hji; rw [hi]
        exact ⟨rfl, List.mem_append.2 (.inr (List.mem_singleton.2 rfl))⟩
      · rw [hj j hji] at h1 h2 ⊢
        exact ⟨(h.pend j h1 h2).1, List.mem_append.2 (.inl (h.pend j h1 h2).2)⟩
    · intro v hv
      rw [hfi]; exact h.fresh v (by omega)
    · intro j
      rw [hm, hfi]
      by_cases hji : j = i
      · subst hji; rw [hi]
        refine pre_cont ?_ (.inr (h.fresh _ (Nat.le_refl _)))
        exact { one := fun _ => hp.one (by omega), b0 := fun _ => hp.b0 (by omega), b1 := fun _ => hp.b1 (by omega), b2 := fun _ => hp.b2 (by omega),
                b3 := fun _ => hp.b3 (.inl hpc), b3s := fun _ => hp.b3s (by omega), b4 := fun _ => hp.b4 (by omega), kle := by simp, out := hp.out, olen := hp.olen, res := hp.res, nfin := by simp,
                esc := by simp [hr] }
      · rw [hj j hji]; exact h.cont j
  | @wait i hr hpc hfin =>
    have hpa : past (s.th i).pc = true := by rw [hpc]; rfl
    obtain ⟨n, rc, b, hp⟩ := cont_post (h.cont i) hpa hfin
    refine h.update (i := i) rfl rfl rfl (Nat.le_refl _) (fun j hj => set_other _ _ hj) (fun _ _ _ _ => rfl) ?_ ?_ ?_ ?_ ?_ ?_ <;>
      rw [set_same]
    · rw [hpc]; simp [lvl]
    · intro k hk; left; rw [hpc]; exact ⟨hk, rfl⟩
    · rw [hpc]; rfl
    · exact .inr fun _ => hfin
    · refine post_cont (n := n) (rc := rc) (b := b) ⟨hp.b4, hp.b1, hp.b2, ?_, ?_, ?_, hp.esc, hp.room, hp.call⟩ rfl hfin
      · have := hp.out; rw [hpc] at this; simpa using this
      · have := hp.olen; rw [hpc] at this; simpa using this
      · simp [hr]
  | @getOut i l hr hpc hm _ =>
    have hpa : past (s.th i).pc = true := by rw [hpc]; rfl
    have hfin : s.fin (s.th i).ev = true := by
      cases hf : s.fin (s.th i).ev with
      | true => rfl
      | false => have := (h.pend i hpa hf).1; rw [hpc] at this; cases this
    obtain ⟨n, rc, b, hp⟩ := cont_post (h.cont i) hpa hfin
    have hl : l = b := by have := hp.b4; rw [hm] at this; exact ClBuf.bytes.inj this
    subst hl
    refine h.update (i := i) rfl rfl rfl (Nat.le_refl _) (fun j hj => set_other _ _ hj) (fun _ _ _ _ => rfl) ?_ ?_ ?_ ?_ ?_ ?_ <;>
      rw [set_same]
    · rw [hpc]; simp [lvl]
    · intro k hk; left; rw [hpc]; exact ⟨hk, rfl⟩
    · rw [hpc]; rfl
    · exact .inr fun _ => hfin
    · refine post_cont (n := n) (rc := rc) (b := l) ⟨hp.b4, hp.b1, hp.b2, ?_, ?_, ?_, hp.esc, hp.room, hp.call⟩ rfl hfin
      · simp
      · have := hp.olen; rw [hpc] at this; simpa using this
      · simp [hr]
  | @getSize i m l hr hpc hm =>
    have hpa : past (s.th i).pc = true := by rw [hpc]; rfl
    have hfin : s.fin (s.th i).ev = true := by
      cases hf : s.fin (s.th i).ev with
      | true => rfl
      | false => have := (h.pend i hpa hf).1; rw [hpc] at this; cases this
    obtain ⟨n, rc, b, hp⟩ := cont_post (h.cont i) hpa hfin
    have hl : m = n := by have := hp.b1; rw [hm] at this; exact (List.cons.inj (ClBuf.longs.inj this)).1
    subst hl
    refine h.update (i := i) rfl rfl rfl (Nat.le_refl _) (fun j hj => set_other _ _ hj) (fun _ _ _ _ => rfl) ?_ ?_ ?_ ?_ ?_ ?_ <;>
      rw [set_same]
    · rw [hpc]; simp [lvl]
    · intro k hk; left; rw [hpc]; exact ⟨hk, rfl⟩
    · rw [hpc]; rfl
    · exact .inr fun _ => hfin
    · refine post_cont (n := m) (rc := rc) (b := b) ⟨hp.b4, hp.b1, hp.b2, ?_, ?_, ?_, hp.esc, hp.room, hp.call⟩ rfl hfin
      · have := hp.out; rw [hpc] at this; simpa using this
      · simp
      · simp [hr]
  | @getRet i x l hr hpc hm =>
    have hpa : past (s.th i).pc = true := by rw [hpc]; rfl
    have hfin : s.fin (s.th i).ev = true := by
      cases hf : s.fin (s.th i).ev with
      | true => rfl
      | false => have := (h.pend i hpa hf).1; rw [hpc] at this; cases this
    obtain ⟨n, rc, b, hp⟩ := cont_post (h.cont i) hpa hfin
    have hl : x = some rc := by have := hp.b2; rw [hm] at this; exact (List.cons.inj (ClBuf.ints.inj this)).1
    subst hl
    refine h.update (i := i) rfl rfl rfl (Nat.le_refl _) (fun j hj => set_other _ _ hj) (fun _ _ _ _ => rfl) ?_ ?_ ?_ ?_ ?_ ?_ <;>
      rw [set_same]
    · rw [hpc]; simp [lvl]
    · intro k hk; left; rw [hpc]; exact ⟨hk, rfl⟩
    · rw [hpc]; rfl
    · exact .inr fun _ => hfin
    · refine post_cont (n := n) (rc := rc) (b := b) ⟨hp.b4, hp.b1, hp.b2, ?_, ?_, ?_, by simp, hp.room, hp.call⟩ rfl hfin
      · have := hp.out; rw [hpc] at this; simpa using this
      · have := hp.olen; rw [hpc] at this; simpa using this
      · simp
  | @fail i hr hpc =>
    refine h.update (i := i) rfl rfl rfl (Nat.le_refl _) (fun j hj => set_other _ _ hj) (fun _ _ _ _ => rfl) ?_ ?_ ?_ ?_ ?_ ?_ <;>
      rw [set_same]
    · simp
    · intro k hk; exact .inl ⟨hk, rfl⟩
    · exact .inl rfl
    · cases hd : past (s.th i).pc && s.fin (s.th i).ev with
      | true =>
        rw [Bool.and_eq_true] at hd
        obtain ⟨n, rc, b, hp⟩ := cont_post (h.cont i) hd.1 hd.2
        refine post_cont (n := n) (rc := rc) (b := b) ⟨hp.b4, hp.b1, hp.b2, hp.out, hp.olen, ?_, by simp, hp.room, hp.call⟩ hd.1 hd.2
        have hnf : (s.th i).pc ≠ .finished := by
          intro hf
          have := hp.res
          rw [hf, if_pos rfl, hr] at this
          cases this
        rw [if_neg hnf]
        simp
      | false =>
        rw [Bool.and_eq_false_iff] at hd
        have hp := cont_pre (h.cont i) hd
        refine pre_cont ?_ hd
        exact { one := hp.one, b0 := hp.b0, b1 := hp.b1, b2 := hp.b2, b3 := hp.b3, b3s := hp.b3s, b4 := hp.b4,
                kle := hp.kle, out := hp.out, olen := hp.olen, res := by simp, nfin := hp.nfin, esc := by simp }
  | @dev q1 q2 c order mem hq hord hrun =>
    have hcq : c ∈ s.queue := by rw [hq]; simp
    obtain ⟨i, hpa, hc, hfc⟩ := h.q c hcq
    have hcev : c.ev = (s.th i).ev := by rw [hc]; rfl
    have hcn : c.n = hostNumChunks (inp i).length clWrapperStride := by rw [hc]; rfl
    rw [hcev] at hfc
    obtain ⟨hw, hinq⟩ := h.pend i hpa hfc
    have hp := cont_pre (h.cont i) (.inr hfc)
    have h5 := lvl_past hpa
    rw [hcn] at hord
    obtain ⟨dev, hord', hcase⟩ := run_spec e (inp i) (buf i) s.mem (s.th i) order (s.th i).ev hp hpa hord
    rw [← hc, hrun] at hcase
    obtain ⟨n, rc, b, hcall, hroom, hmem⟩ : ∃ n rc b, cl842Decompress e order dev (inp i) (buf i) = .ret rc n (b.take (buf i).length) ∧
        (buf i).length ≤ b.length ∧
        mem = fun h => if h = (s.th i).var 4 then .bytes b else if h = (s.th i).var 1 then .longs [n]
          else if h = (s.th i).var 2 then .ints [some rc] else s.mem h := by
      rcases hcase with ⟨hx, _⟩ | ⟨n, rc, b, h1, h3, h2⟩
      · cases hx
      · exact ⟨n, rc, b, h1, h3, Option.some.inj h2⟩
    have hnd : (q1.map (·.ev) ++ c.ev :: q2.map (·.ev)).Nodup := by
      have := h.qnd; rw [hq] at this; simpa using this
    have hsub : ∀ c', c' ∈ q1 ++ q2 → c' ∈ s.queue ∧ c'.ev ≠ c.ev := by
      intro c' hc'
      rw [List.mem_append] at hc'
      have h1 := List.nodup_append.1 hnd
      have h2 := List.nodup_cons.1 h1.2.1
      refine ⟨by rw [hq]; rcases hc' with hc' | hc' <;> simp [hc'], ?_⟩
      rcases hc' with hc' | hc'
      · exact h1.2.2 _ (List.mem_map_of_mem hc') _ (List.mem_cons_self ..)
      · intro heq
        exact h2.1 (heq ▸ List.mem_map_of_mem hc')
    refine { lt := h.lt, inj := h.inj, evlt := h.evlt, evinj := h.evinj, q := ?_, qnd := ?_, pend := ?_, fresh := ?_, cont := ?_ }
    · intro c' hc'
      obtain ⟨h1, h2⟩ := hsub c' hc'
      obtain ⟨j, k1, k2, k3⟩ := h.q c' h1
      refine ⟨j, k1, k2, ?_⟩
      show (if c'.ev = c.ev then true else s.fin c'.ev) = false
      rw [if_neg h2]; exact k3
    · show ((q1 ++ q2).map (·.ev)).Nodup
      rw [List.map_append]
      exact hnd.sublist (List.Sublist.append (List.Sublist.refl _) (List.sublist_cons_self ..))
    · intro j h1 h2
      replace h2 : (if (s.th j).ev = c.ev then true else s.fin (s.th j).ev) = false := h2
      split at h2
      · cases h2
      · rename_i hne
        obtain ⟨k1, k2⟩ := h.pend j h1 h2
        refine ⟨k1, ?_⟩
        show _ ∈ q1 ++ q2
        rw [hq, List.mem_append, List.mem_cons] at k2
        rcases k2 with k2 | k2 | k2
        · exact List.mem_append.2 (.inl k2)
        · exact absurd (congrArg ClCmd.ev k2) hne
        · exact List.mem_append.2 (.inr k2)
    · intro v hv
      show (if v = c.ev then true else s.fin v) = false
      have := h.evlt i hpa
      replace hv : s.evs ≤ v := hv
      rw [if_neg (by omega)]
      exact h.fresh v hv
    · intro j
      show Cont e (inp j) (buf j) mem (fun v => if v = c.ev then true else s.fin v) (s.th j)
      by_cases hji : j = i
      · subst hji
        have hd : ∀ k k', k < 5 → k' < 5 → k ≠ k' → (s.th j).var k ≠ (s.th j).var k' := by
          intro k k' hk hk' hne heq
          exact hne (h.inj j k j k' (by omega) (by omega) heq).2
        refine post_cont (n := n) (rc := rc) (b := b) ⟨?_, ?_, ?_, ?_, ?_, ?_, ?_, hroom, order, dev, hord', hcall⟩ hpa ?_
        · rw [hmem]
          show (if _ = _ then _ else _) = _
          rw [if_pos rfl]
        · rw [hmem]
          show (if _ = _ then _ else if _ = _ then _ else _) = _
          rw [if_neg (hd 1 4 (by omega) (by omega) (by omega)), if_pos rfl]
        · rw [hmem]
          show (if _ = _ then _ else if _ = _ then _ else if _ = _ then _ else _) = _
          rw [if_neg (hd 2 4 (by omega) (by omega) (by omega)), if_neg (hd 2 1 (by omega) (by omega) (by omega)), if_pos rfl]
        · rw [hw]; simp [hp.out]
        · rw [hw]; simp [hp.olen]
        · rw [hw]; simp only [reduceCtorEq, if_false]; exact hp.res
        · intro hx; have := hp.esc hx; rw [hw] at this; cases this
        · show (if _ = _ then _ else _) = _
          rw [if_pos hcev.symm]
      · refine cont_mem ?_ ?_ (h.cont j)
        · intro k hk
          have hne : ∀ k', k' < 5 → (s.th j).var k ≠ (s.th i).var k' := by
            intro k' hk' heq
            exact hji (h.inj j k i k' hk (by omega) heq).1
          rw [hmem]
          show (if _ = _ then _ else if _ = _ then _ else if _ = _ then _ else _) = _
          rw [if_neg (hne 4 (by omega)), if_neg (hne 1 (by omega)), if_neg (hne 2 (by omega))]
        · intro hpj
          show (if _ = _ then _ else _) = _
          rw [if_neg]
          rw [hcev]
          intro heq
          exact hji (h.evinj j i hpj hpa heq)

theorem inv_start (e : Endian) (inp buf : Nat → List Byte) : Inv e inp buf (clStart buf) := by
  refine { lt := ?_, inj := ?_, evlt := ?_, evinj := ?_, q := ?_, qnd := ?_, pend := ?_, fresh := ?_, cont := ?_ }
  · intro i k hk; simp [clStart, lvl] at hk
  · intro i k i' k' hk; simp [clStart, lvl] at hk
  · intro i hi; simp [clStart, past] at hi
  · intro i i' hi; simp [clStart, past] at hi
  · intro c hc; simp [clStart] at hc
  · simp [clStart]
  · intro i hi; simp [clStart, past] at hi
  · intro v _; rfl
  · intro i
    refine pre_cont ?_ (.inl rfl)
    refine { one := ?_, b0 := ?_, b1 := ?_, b2 := ?_, b3 := ?_, b3s := ?_, b4 := ?_, kle := ?_, out := rfl, olen := rfl, res := ?_, nfin := ?_, esc := ?_ } <;>
      simp [clStart, lvl, past]

theorem inv_exec {e : Endian} {inp buf : Nat → List Byte} {l : List ClLab} {s : ClState} (h : ClExec e inp buf (clStart buf) l s) :
    Inv e inp buf s := by
  induction h with
  | init => exact inv_start e inp buf
  | step _ hs ih => exact inv_step ih hs

end Lib842.ClT
