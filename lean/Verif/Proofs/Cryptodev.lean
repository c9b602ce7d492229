import Verif.Model.Cryptodev
/-!
# The hardware wrapper: helper lemmas
-/

namespace Lib842
open Spec

/-! ## Resources -/

/-- What `c842_ctx_init` leaves behind. -/
theorem ctxInit_spec (info : Bool) (junk : BitVec 16) (env : SysTr → Sys → Resp) (tr : SysTr) :
    ∃ r tr', ctxInit info junk env tr = some (r, tr') ∧ (SysOk tr → SysOk tr') ∧ openMem tr' = openMem tr ∧
      match r with
      | .error err => err < 0 ∧ openFds tr' = openFds tr ∧ openSessions tr' = openSessions tr
      | .ok ctx => openFds tr' = ctx.cfd :: openFds tr ∧ openSessions tr' = (ctx.cfd, ctx.ses) :: openSessions tr := by
  unfold ctxInit
  simp only [bind, SysM.bind, SysM.call]
  cases h1 : env tr .open with
  | fail e =>
    refine ⟨_, _, rfl, ?_⟩
    refine ⟨fun h => ⟨h, trivial⟩, rfl, ?_, rfl, rfl⟩
    unfold negErrno; omega
  | ok cfd =>
    simp only [SysM.bind, SysM.call, SysM.pure]
    cases h2 : env ((.open, .ok cfd) :: tr) (.setfd cfd) with
    | fail e =>
      refine ⟨_, _, rfl, ?_⟩
      refine ⟨fun h => ?_, rfl, ?_, ?_, rfl⟩
      · exact ⟨⟨⟨h, trivial⟩, List.mem_cons_self⟩, List.mem_cons_self⟩
      · unfold negErrno; omega
      · show (cfd :: openFds tr).erase cfd = openFds tr
        exact List.erase_cons_head _ _
    | ok v2 =>
      simp only [SysM.bind, SysM.call, SysM.pure]
      cases h3 : env ((.setfd cfd, .ok v2) :: (.open, .ok cfd) :: tr) (.gsession cfd) with
      | fail e =>
        refine ⟨_, _, rfl, ?_⟩
        refine ⟨fun h => ?_, rfl, ?_, ?_, rfl⟩
        · exact ⟨⟨⟨⟨h, trivial⟩, List.mem_cons_self⟩, List.mem_cons_self⟩, List.mem_cons_self⟩
        · unfold negErrno; omega
        · show (cfd :: openFds tr).erase cfd = openFds tr
          exact List.erase_cons_head _ _
      | ok ses =>
        simp only [SysM.bind, SysM.call, SysM.pure]
        cases info with
        | false =>
          refine ⟨_, _, rfl, ?_⟩
          refine ⟨fun h => ?_, rfl, rfl, rfl⟩
          exact ⟨⟨⟨h, trivial⟩, List.mem_cons_self⟩, List.mem_cons_self⟩
        | true =>
          simp only [if_true, SysM.bind, SysM.call, SysM.pure]
          cases h4 : env ((.gsession cfd, .ok ses) :: (.setfd cfd, .ok v2) :: (.open, .ok cfd) :: tr)
              (.sessinfo cfd ses) with
          | fail e =>
            refine ⟨_, _, rfl, ?_⟩
            refine ⟨fun h => ?_, rfl, ?_, ?_, ?_⟩
            · exact ⟨⟨⟨⟨⟨⟨h, trivial⟩, List.mem_cons_self⟩, List.mem_cons_self⟩, List.mem_cons_self, List.mem_cons_self⟩,
                List.mem_cons_self, List.mem_cons_self⟩, List.mem_cons_self⟩
            · unfold negErrno; omega
            · show (cfd :: openFds tr).erase cfd = openFds tr
              exact List.erase_cons_head _ _
            · show ((cfd, ses) :: openSessions tr).erase (cfd, ses) = openSessions tr
              exact List.erase_cons_head _ _
          | ok v =>
            refine ⟨_, _, rfl, ?_⟩
            refine ⟨fun h => ?_, rfl, rfl, rfl⟩
            exact ⟨⟨⟨⟨h, trivial⟩, List.mem_cons_self⟩, List.mem_cons_self⟩, List.mem_cons_self, List.mem_cons_self⟩

theorem ctxDeinit_spec (ctx : CtxDev) (env : SysTr → Sys → Resp) (tr : SysTr) :
    ∃ err tr', ctxDeinit ctx env tr = some (err, tr') ∧ err ≤ 0 ∧
      (SysOk tr → ctx.cfd ∈ openFds tr → (ctx.cfd, ctx.ses) ∈ openSessions tr → SysOk tr') ∧
      openMem tr' = openMem tr ∧ openFds tr' = (openFds tr).erase ctx.cfd ∧
      openSessions tr' = (openSessions tr).erase (ctx.cfd, ctx.ses) := by
  unfold ctxDeinit
  simp only [bind, SysM.bind, SysM.call]
  cases h1 : env tr (.fsession ctx.cfd ctx.ses) with
  | fail e =>
    simp only [SysM.bind, SysM.call, SysM.pure]
    cases h2 : env ((.fsession ctx.cfd ctx.ses, .fail e) :: tr) (.close ctx.cfd) with
    | fail e' =>
      refine ⟨_, _, rfl, ?_⟩
      refine ⟨?_, fun h hf hs => ⟨⟨h, hf, hs⟩, hf⟩, rfl, rfl, rfl⟩
      unfold negErrno
      split <;> omega
    | ok v =>
      refine ⟨_, _, rfl, ?_⟩
      refine ⟨?_, fun h hf hs => ⟨⟨h, hf, hs⟩, hf⟩, rfl, rfl, rfl⟩
      unfold negErrno; omega
  | ok v =>
    simp only [SysM.bind, SysM.call, SysM.pure]
    cases h2 : env ((.fsession ctx.cfd ctx.ses, .ok v) :: tr) (.close ctx.cfd) with
    | fail e' =>
      refine ⟨_, _, rfl, ?_⟩
      refine ⟨?_, fun h hf hs => ⟨⟨h, hf, hs⟩, hf⟩, rfl, rfl, rfl⟩
      unfold negErrno
      split <;> omega
    | ok v' =>
      refine ⟨_, _, rfl, ?_⟩
      exact ⟨Int.le_refl _, fun h hf hs => ⟨⟨h, hf, hs⟩, hf⟩, rfl, rfl, rfl⟩

/-- What the thread holds between calls is what it has stored. -/
structure DevInv (s : DevState) (tr : SysTr) : Prop where
  ok : SysOk tr
  fds : openFds tr = (s.slot.map fun p => p.2.cfd).toList
  ses : openSessions tr = (s.slot.map fun p => (p.2.cfd, p.2.ses)).toList
  mem : openMem tr = (s.slot.map fun p => p.1).toList
  key : s.keyErr = 0

theorem getThreadCtx'_spec (info : Bool) (junk : BitVec 16) (env : SysTr → Sys → Resp) {s : DevState} {tr : SysTr}
    (hi : DevInv s tr) (hv : s.keyValid = true) :
    ∃ r s' tr', getThreadCtx' info junk s env tr = some ((r, s'), tr') ∧ DevInv s' tr' ∧
      s'.once = s.once ∧ s'.keyValid = true ∧
      match r with
      | .error err => err < 0 ∧ s'.slot = none
      | .ok ctx => ∃ p, s'.slot = some (p, ctx) := by
  unfold getThreadCtx'
  rw [if_neg (by rw [hi.key]; simp), if_neg (by rw [hv]; simp)]
  cases hs : s.slot with
  | some pc =>
    obtain ⟨p, ctx⟩ := pc
    exact ⟨.ok ctx, s, tr, rfl, hi, rfl, hv, p, hs⟩
  | none =>
    have hf := hi.fds
    have hse := hi.ses
    have hme := hi.mem
    rw [hs] at hf hse hme
    simp only [Option.map_none, Option.toList_none] at hf hse hme
    simp only [bind, SysM.bind, SysM.call]
    cases h1 : env tr .malloc with
    | fail e =>
      refine ⟨_, _, _, rfl, ?_⟩
      refine ⟨⟨⟨hi.ok, trivial⟩, ?_, ?_, ?_, hi.key⟩, rfl, hv, by decide, hs⟩
      · rw [hs]; exact hf
      · rw [hs]; exact hse
      · rw [hs]; exact hme
    | ok p =>
      simp only [SysM.bind]
      obtain ⟨r, tr1, e1, e2, e3, e4⟩ := ctxInit_spec info junk env ((.malloc, .ok p) :: tr)
      rw [e1]
      have hok1 : SysOk tr1 := e2 ⟨hi.ok, trivial⟩
      have hm1 : openMem tr1 = [p] := by rw [e3]; show p :: openMem tr = [p]; rw [hme]
      cases r with
      | error err =>
        simp only at e4
        simp only [SysM.bind, SysM.call]
        refine ⟨_, _, _, rfl, ?_⟩
        refine ⟨⟨⟨hok1, by rw [hm1]; exact List.mem_cons_self⟩, ?_, ?_, ?_, hi.key⟩, rfl, hv, e4.1, hs⟩
        · rw [hs]; show openFds tr1 = []; rw [e4.2.1]; exact hf
        · rw [hs]; show openSessions tr1 = []; rw [e4.2.2]; exact hse
        · rw [hs]; show (openMem tr1).erase p = []; rw [hm1]; exact List.erase_cons_head _ _
      | ok ctx =>
        simp only at e4
        simp only [SysM.bind, SysM.call]
        have hf1 : openFds tr1 = [ctx.cfd] := by rw [e4.1]; show ctx.cfd :: openFds tr = _; rw [hf]
        have hs1 : openSessions tr1 = [(ctx.cfd, ctx.ses)] := by
          rw [e4.2]; show _ :: openSessions tr = _; rw [hse]
        cases h2 : env tr1 (.tssSet p) with
        | fail e =>
          simp only [SysM.bind, SysM.call]
          obtain ⟨err, tr2, d1, -, d2, d3, d4, d5⟩ := ctxDeinit_spec ctx env ((.tssSet p, .fail e) :: tr1)
          rw [d1]
          simp only [SysM.bind, SysM.call]
          have hm2 : openMem tr2 = [p] := d3.trans hm1
          refine ⟨_, _, _, rfl, ?_⟩
          refine ⟨⟨⟨d2 ⟨hok1, trivial⟩ ?_ ?_, ?_⟩, ?_, ?_, ?_, hi.key⟩, rfl, hv, by decide, hs⟩
          · show ctx.cfd ∈ openFds tr1; rw [hf1]; exact List.mem_cons_self
          · show _ ∈ openSessions tr1; rw [hs1]; exact List.mem_cons_self
          · show p ∈ openMem tr2; rw [hm2]; exact List.mem_cons_self
          · rw [hs]; show openFds tr2 = []; rw [d4]; show (openFds tr1).erase _ = _; rw [hf1]
            exact List.erase_cons_head _ _
          · rw [hs]; show openSessions tr2 = []; rw [d5]; show (openSessions tr1).erase _ = _; rw [hs1]
            exact List.erase_cons_head _ _
          · rw [hs]; show (openMem tr2).erase p = []; rw [hm2]; exact List.erase_cons_head _ _
        | ok v =>
          refine ⟨_, _, _, rfl, ?_⟩
          exact ⟨⟨⟨hok1, trivial⟩, hf1, hs1, hm1, hi.key⟩, rfl, hv, p, rfl⟩

/-- With a key that has been created, or can be created now, the call returns; without one it uses
the key nevertheless. -/
theorem getThreadCtx_spec (info : Bool) (junk : BitVec 16) {s : DevState} (env : SysTr → Sys → Resp) {tr : SysTr}
    (h : DevInv s tr) (hk : s.keyValid = s.once) :
    (getThreadCtx info junk s env tr = none ∧ s.once = false ∧ ∃ e, env tr .tssCreate = .fail e) ∨
    ((s.once = true ∨ ∃ v, env tr .tssCreate = .ok v) ∧
      ∃ r s' tr', getThreadCtx info junk s env tr = some ((r, s'), tr') ∧ DevInv s' tr' ∧
      s'.once = true ∧ s'.keyValid = true ∧
      match r with
      | .error err => err < 0 ∧ s'.slot = none
      | .ok ctx => ∃ p, s'.slot = some (p, ctx)) := by
  unfold getThreadCtx
  cases ho : s.once with
  | true =>
    right
    obtain ⟨r, s', tr', m1, m2, m3, m4⟩ := getThreadCtx'_spec info junk env h (hk.trans ho)
    exact ⟨.inl rfl, r, s', tr', m1, m2, m3.trans ho, m4⟩
  | false =>
    cases hc : env tr .tssCreate with
    | fail e =>
      left
      refine ⟨?_, rfl, e, rfl⟩
      have hv : s.keyValid = false := hk.trans ho
      show SysM.bind (createThreadCtxKey _) _ env tr = none
      simp only [createThreadCtxKey, bind, SysM.bind, SysM.call, hc, SysM.pure, getThreadCtx', hv]
      rfl
    | ok v =>
      right
      obtain ⟨r, s', tr', m1, m2, m3, m4⟩ := getThreadCtx'_spec info junk env
        (s := { s with once := true, keyValid := true, keyErr := 0 })
        (tr := (.tssCreate, .ok v) :: tr) ⟨⟨h.ok, trivial⟩, h.fds, h.ses, h.mem, rfl⟩ rfl
      refine ⟨.inr ⟨v, rfl⟩, r, s', tr', ?_, m2, m3, m4⟩
      rw [← m1]
      show SysM.bind (createThreadCtxKey _) _ env tr = _
      simp only [createThreadCtxKey, bind, SysM.bind, SysM.call, hc, SysM.pure]

theorem destroy_spec {s : DevState} (env : SysTr → Sys → Resp) {tr : SysTr} (h : DevInv s tr) :
    ∃ tr', destroyThreadCtx s env tr = some ({ s with slot := none }, tr') ∧ DevInv { s with slot := none } tr' := by
  unfold destroyThreadCtx
  have hf := h.fds
  have hse := h.ses
  have hme := h.mem
  cases hs : s.slot with
  | none =>
    obtain ⟨a, b, c, d⟩ := s
    cases hs
    exact ⟨tr, rfl, h⟩
  | some pc =>
    obtain ⟨p, ctx⟩ := pc
    rw [hs] at hf hse hme
    simp only [Option.map_some, Option.toList_some] at hf hse hme
    simp only [bind, SysM.bind, SysM.call]
    obtain ⟨err, tr2, d1, -, d2, d3, d4, d5⟩ := ctxDeinit_spec ctx env tr
    rw [d1]
    simp only [SysM.bind, SysM.call, SysM.pure]
    have hm2 : openMem tr2 = [p] := d3.trans hme
    refine ⟨_, rfl, ⟨d2 h.ok ?_ ?_, ?_⟩, ?_, ?_, ?_, h.key⟩
    · rw [hf]; exact List.mem_cons_self
    · rw [hse]; exact List.mem_cons_self
    · show p ∈ openMem tr2; rw [hm2]; exact List.mem_cons_self
    · show openFds tr2 = []; rw [d4, hf]; exact List.erase_cons_head _ _
    · show openSessions tr2 = []; rw [d5, hse]; exact List.erase_cons_head _ _
    · show (openMem tr2).erase p = []; rw [hm2]; exact List.erase_cons_head _ _

/-! ## Lengths -/

/-- A length of 64 bits as the driver gets it -/
def lenOk (i : BitVec 64) : Prop := i.toNat < 2 ^ 32 - 1 ∨ i = BitVec.allOnes 64

def lenTo32 (i : BitVec 64) : BitVec 32 := if i = BitVec.allOnes 64 then BitVec.allOnes 32 else i.truncate 32

theorem gt_ofNat {a : BitVec 64} {n : Nat} (hn : n < 2 ^ 64) : a > BitVec.ofNat 64 n ↔ n < a.toNat := by
  rw [gt_iff_lt, BitVec.lt_def, BitVec.toNat_ofNat, Nat.mod_eq_of_lt hn]

theorem convLens_spec (ilens olens : List (BitVec 64)) (k : Nat) (h1 : k ≤ ilens.length) (h2 : k ≤ olens.length) :
    ((∀ i < k, ∃ a b, ilens[i]? = some a ∧ olens[i]? = some b ∧ lenOk a ∧ b.toNat < 2 ^ 32) ∧
      convLens ilens olens k = some (some ((ilens.take k).map lenTo32, (olens.take k).map (BitVec.truncate 32)))) ∨
    ((∃ i < k, ∃ a b, ilens[i]? = some a ∧ olens[i]? = some b ∧ ¬ (lenOk a ∧ b.toNat < 2 ^ 32)) ∧
      convLens ilens olens k = some none) := by
  induction k with
  | zero => left; exact ⟨fun i hi => absurd hi (Nat.not_lt_zero _), rfl⟩
  | succ k ih =>
    have ha : ilens[k]? = some ilens[k] := List.getElem?_eq_getElem (by omega)
    have hb : olens[k]? = some olens[k] := List.getElem?_eq_getElem (by omega)
    rcases ih (by omega) (by omega) with ⟨g, e⟩ | ⟨⟨i, hi, a, b, g1, g2, g3⟩, e⟩
    · have hnot : ¬ (ilens[k] > BitVec.ofNat 64 (UINT32_MAX - 1) ∧ ilens[k] ≠ BitVec.allOnes 64) ↔ lenOk ilens[k] := by
        rw [gt_ofNat (by decide)]
        unfold lenOk UINT32_MAX
        by_cases hx : ilens[k] = BitVec.allOnes 64
        · simp [hx]
        · simp only [hx, or_false, ne_eq, not_false_iff, and_true]
          omega
      have hnot' : ¬ (olens[k] > BitVec.ofNat 64 UINT32_MAX) ↔ olens[k].toNat < 2 ^ 32 := by
        rw [gt_ofNat (by decide)]
        unfold UINT32_MAX
        omega
      unfold convLens
      simp only [e, ha, hb, Option.bind_eq_bind, Option.bind_some]
      by_cases c1 : lenOk ilens[k]
      · rw [if_neg (hnot.2 c1)]
        by_cases c2 : olens[k].toNat < 2 ^ 32
        · left
          rw [if_neg (hnot'.2 c2)]
          refine ⟨fun i hi => ?_, ?_⟩
          · by_cases hik : i = k
            · subst hik; exact ⟨_, _, ha, hb, c1, c2⟩
            · exact g i (by omega)
          · have hl : ((if ilens[k] ≠ BitVec.allOnes 64 then ilens[k] else BitVec.ofNat 64 UINT32_MAX).truncate 32)
                = lenTo32 ilens[k] := by
              unfold lenTo32
              by_cases hx : ilens[k] = BitVec.allOnes 64
              · rw [if_neg (by simp [hx]), if_pos hx]; decide
              · rw [if_pos hx, if_neg hx]
            rw [hl, List.take_succ, List.take_succ, ha, hb, Option.toList_some, Option.toList_some, List.map_append,
              List.map_append]
            rfl
        · right
          rw [if_pos (Classical.not_not.1 fun h => c2 (hnot'.1 h))]
          exact ⟨⟨k, by omega, _, _, ha, hb, fun h => c2 h.2⟩, rfl⟩
      · right
        rw [if_pos (Classical.not_not.1 fun h => c1 (hnot.1 h))]
        exact ⟨⟨k, by omega, _, _, ha, hb, fun h => c1 h.1⟩, rfl⟩
    · right
      refine ⟨⟨i, by omega, a, b, g1, g2, g3⟩, ?_⟩
      unfold convLens
      simp only [e, Option.bind_eq_bind, Option.bind_some]

theorem copyLens_spec (src : List (BitVec 32)) (olens : List (BitVec 64)) (k : Nat) (h1 : k ≤ src.length)
    (h2 : k ≤ olens.length) :
    copyLens src k olens = some ((src.take k).map (BitVec.zeroExtend 64) ++ olens.drop k) := by
  induction k with
  | zero => rfl
  | succ k ih =>
    have ha : src[k]? = some src[k] := List.getElem?_eq_getElem (by omega)
    unfold copyLens
    rw [ih (by omega) (by omega)]
    simp only [Option.bind_eq_bind, Option.bind_some, ha]
    have hl : ((src.take k).map (BitVec.zeroExtend 64)).length = k := by
      rw [List.length_map, List.length_take]; omega
    rw [if_pos (by rw [List.length_append, hl, List.length_drop]; omega)]
    congr 1
    rw [List.set_append_right _ _ (by omega), hl, Nat.sub_self, List.take_succ, ha, Option.toList_some, List.map_append,
      List.append_assoc]
    congr 1
    rw [List.drop_eq_getElem_cons (show k < olens.length by omega), List.set_cons_zero]
    rfl

/-- The test for strides: the product fits into 32 bits. -/
theorem stride_iff {n st : BitVec 64} :
    (n ≠ 0 ∧ st > BitVec.ofNat 64 UINT32_MAX / n) ↔ 2 ^ 32 ≤ st.toNat * n.toNat := by
  rw [gt_iff_lt, BitVec.lt_def, BitVec.toNat_udiv, BitVec.toNat_ofNat, Nat.mod_eq_of_lt (by decide)]
  unfold UINT32_MAX
  by_cases hn : n = 0
  · subst hn; simp
  · have hp : 0 < n.toNat := by
      rcases Nat.eq_zero_or_pos n.toNat with h | h
      · exact absurd (BitVec.eq_of_toNat_eq (by simpa using h)) hn
      · exact h
    rw [Nat.div_lt_iff_lt_mul hp]
    simp only [ne_eq, hn, not_false_iff, true_and]
    omega

/-- The alignment test, for a mask of low bits. -/
theorem aligned_iff {ptr : BitVec 64} {mask : BitVec 16} {k : Nat} (hm : mask.toNat = 2 ^ k - 1) (hk : k ≤ 16) :
    isPointerAligned ptr mask = true ↔ ptr.toNat % 2 ^ k = 0 := by
  unfold isPointerAligned
  rw [decide_eq_true_iff]
  have hpow : 2 ^ k ≤ 2 ^ 16 := Nat.pow_le_pow_right (by decide) hk
  have hpos : 0 < 2 ^ k := Nat.pow_pos (by decide)
  have hmz : (mask.zeroExtend 64).toNat = 2 ^ k - 1 := by
    show (mask.setWidth 64).toNat = _
    rw [BitVec.toNat_setWidth, hm, Nat.mod_eq_of_lt (by omega)]
  have hand : ∀ x : BitVec 64, (x &&& ~~~(mask.zeroExtend 64)).toNat = x.toNat / 2 ^ k * 2 ^ k := by
    intro x
    have : x &&& ~~~(mask.zeroExtend 64) = (x >>> k) <<< k := by
      apply BitVec.eq_of_getLsbD_eq
      intro i hi
      have hmi : (mask.zeroExtend 64).getLsbD i = decide (i < k) := by
        rw [BitVec.getLsbD, hmz, Nat.testBit_two_pow_sub_one]
      rw [BitVec.getLsbD_and, BitVec.getLsbD_not, hmi, BitVec.getLsbD_shiftLeft, BitVec.getLsbD_ushiftRight]
      by_cases hik : i < k
      · simp [hik]
      · simp only [hik, hi, decide_false, decide_true, Bool.not_false, Bool.and_true, Bool.true_and]
        rw [Nat.add_sub_cancel' (by omega)]
    rw [this, BitVec.toNat_shiftLeft, BitVec.toNat_ushiftRight, Nat.shiftLeft_eq, Nat.shiftRight_eq_div_pow,
      Nat.mod_eq_of_lt]
    exact Nat.lt_of_le_of_lt (Nat.div_mul_le_self _ _) x.isLt
  have hlt := ptr.isLt
  constructor
  · intro h
    have := congrArg BitVec.toNat h
    rw [hand] at this
    rw [this]
    exact Nat.mul_mod_left _ _
  · intro h
    apply BitVec.eq_of_toNat_eq
    rw [hand, BitVec.toNat_add, hmz]
    obtain ⟨q, hq⟩ := Nat.dvd_of_mod_eq_zero h
    have h64 : 2 ^ 64 = 2 ^ k * 2 ^ (64 - k) := by rw [← Nat.pow_add]; congr 1; omega
    have hq2 : q + 1 ≤ 2 ^ (64 - k) := by
      have : 2 ^ k * q < 2 ^ k * 2 ^ (64 - k) := by rw [← hq, ← h64]; exact hlt
      exact Nat.lt_of_mul_lt_mul_left this
    have hmul : 2 ^ k * (q + 1) ≤ 2 ^ 64 := by rw [h64]; exact Nat.mul_le_mul_left _ hq2
    rw [Nat.mul_add, Nat.mul_one, ← hq] at hmul
    rw [Nat.mod_eq_of_lt (by omega)]
    have : (ptr.toNat + (2 ^ k - 1)) / 2 ^ k = q := by
      rw [hq, Nat.add_comm, Nat.add_mul_div_left _ _ hpos, Nat.div_eq_of_lt (by omega), Nat.zero_add]
    rw [this, hq, Nat.mul_comm]

end Lib842
