import Verif.Proofs.ClThreads2
import Verif.Props.ClHost
/-!
# Property theorems for concurrent calls of `cl842_decompress` (C112)

Any number of calls run at the same time, each with its own input and output buffer, in any interleaving; any call of the OpenCL runtime may fail.
-/

namespace Lib842.Props
open Spec ClT

/-- C112: a call that returns a value has the result of a call on its own, whatever the other calls do: the return value, `*olen` and the output buffer are those of
`cl842_decompress` with some order of the work items and some old contents of the device memory. -/
theorem C112_result (e : Endian) (inp buf : Nat → List Byte) (l : List ClLab) (s : ClState) (h : ClExec e inp buf (clStart buf) l s)
    (i : Nat) (x : Option (Option Errno)) (hr : (s.th i).res = some (.value x)) :
    ∃ (rc : Option Errno) (order : List Nat) (dev : Nat → Byte), x = some rc ∧ order.Perm (List.range 256) ∧
      cl842Decompress e order dev (inp i) (buf i) = .ret rc (s.th i).olen (s.th i).out := by
  have hI := inv_exec h
  cases hd : past (s.th i).pc && s.fin (s.th i).ev with
  | false => exact absurd hr ((cont_pre (hI.cont i) (Bool.and_eq_false_iff.1 hd)).res x)
  | true =>
    rw [Bool.and_eq_true] at hd
    obtain ⟨n, rc, b, hp⟩ := cont_post (hI.cont i) hd.1 hd.2
    have hfin : (s.th i).pc = .finished := by
      by_contra hf
      have := hp.res
      rw [if_neg hf] at this
      exact this x hr
    have h1 := hp.res
    rw [if_pos hfin, hr] at h1
    have h2 := hp.out
    rw [hfin] at h2
    simp only [reduceCtorEq, or_self, if_false] at h2
    have h3 := hp.olen
    rw [hfin] at h3
    simp only [reduceCtorEq, or_self, if_false] at h3
    obtain ⟨order, dev, h4, h5⟩ := hp.call
    exact ⟨rc, order, dev, ClRes.value.inj (Option.some.inj h1), h4, by rw [h2, h3]; exact h5⟩

/-- C112: a call with a stream of the hardware format that returns a value returns 0, and the data are in its own output buffer, with any number of other calls (corrupt streams, failures). -/
theorem C112_valid_stream (e : Endian) (inp buf : Nat → List Byte) (l : List ClLab) (s : ClState) (h : ClExec e inp buf (clStart buf) l s)
    (i : Nat) (x : Option (Option Errno)) (hr : (s.th i).res = some (.value x)) (d : List Byte) (h0 : inp i ≠ []) (h8 : (inp i).length % 8 = 0)
    (hmax : (inp i).length ≤ 99999) (hd : HwDecodes (inp i) d) (hb : d.length ≤ (buf i).length) :
    x = some none ∧ (s.th i).olen = d.length ∧ (s.th i).out.length = (buf i).length ∧ (s.th i).out.take d.length = d := by
  obtain ⟨rc, order, dev, hx, hord, hc⟩ := C112_result e inp buf l s h i x hr
  rw [C56_wrapper_partial e order hord dev (inp i) (buf i) d h0 h8 hmax hd hb] at hc
  simp only [Call.ret.injEq] at hc
  obtain ⟨h1, h2, h3⟩ := hc
  refine ⟨by rw [hx, ← h1], h2.symm, ?_, ?_⟩
  · rw [← h3]; simp; omega
  · rw [← h3]; simp

/-- C112: a call fails (`-ENOMEM`, or an exception from the program cache) if and only if a call of the runtime that it made has failed: a failure in one call is not seen by another one.
After a failure the output buffer and `*olen` are as before, or they have what the call would have returned (`*olen` perhaps not yet). -/
theorem C112_failure (e : Endian) (inp buf : Nat → List Byte) (l : List ClLab) (s : ClState) (h : ClExec e inp buf (clStart buf) l s) (i : Nat) :
    ((s.th i).res = some .nomem ∨ (s.th i).res = some .escaped ↔ ClLab.fail i ∈ l) ∧
    ((s.th i).res = some .escaped → (s.th i).out = buf i ∧ (s.th i).olen = (buf i).length) ∧
    ((s.th i).out = buf i ∧ (s.th i).olen = (buf i).length ∨
      ∃ (rc : Option Errno) (n : Nat) (order : List Nat) (dev : Nat → Byte), order.Perm (List.range 256) ∧
        cl842Decompress e order dev (inp i) (buf i) = .ret rc n (s.th i).out ∧ ((s.th i).olen = n ∨ (s.th i).olen = (buf i).length)) := by
  have hI := inv_exec h
  refine ⟨fail_exec h i, ?_, ?_⟩
  · intro hx
    cases hd : past (s.th i).pc && s.fin (s.th i).ev with
    | false =>
      have hp := cont_pre (hI.cont i) (Bool.and_eq_false_iff.1 hd)
      exact ⟨hp.out, hp.olen⟩
    | true =>
      rw [Bool.and_eq_true] at hd
      obtain ⟨n, rc, b, hp⟩ := cont_post (hI.cont i) hd.1 hd.2
      exact absurd hx hp.esc
  · cases hd : past (s.th i).pc && s.fin (s.th i).ev with
    | false =>
      have hp := cont_pre (hI.cont i) (Bool.and_eq_false_iff.1 hd)
      exact .inl ⟨hp.out, hp.olen⟩
    | true =>
      rw [Bool.and_eq_true] at hd
      obtain ⟨n, rc, b, hp⟩ := cont_post (hI.cont i) hd.1 hd.2
      obtain ⟨order, dev, h4, h5⟩ := hp.call
      have h2 := hp.out
      have h3 := hp.olen
      split at h2
      · rename_i hpc
        left
        refine ⟨h2, ?_⟩
        rw [if_pos (by rcases hpc with hpc | hpc <;> simp [hpc])] at h3
        exact h3
      · right
        refine ⟨rc, n, order, dev, h4, by rw [h2]; exact h5, ?_⟩
        split at h3
        · exact .inr h3
        · exact .inl h3

/-- C112: the results of a call that has ended stay as they are: no other call writes to its output buffer or its `*olen` later. -/
theorem C112_stable (e : Endian) (inp buf : Nat → List Byte) (s s' : ClState) (l : List ClLab) (h : ClExec e inp buf s l s') (i : Nat)
    (hr : (s.th i).res ≠ none) : s'.th i = s.th i := by
  induction h with
  | init => rfl
  | step _ hs ih => rw [ended_step hs i (by rw [ih]; exact hr), ih]

/-- C112: the decompressor is constructed by one call at a time, successfully at most once, and no call uses it before. -/
theorem C112_constructed_once (e : Endian) (inp buf : Nat → List Byte) (l : List ClLab) (s : ClState) (h : ClExec e inp buf (clStart buf) l s) :
    (∀ i j, (s.th i).res = none → (s.th i).pc = .build → (s.th j).res = none → (s.th j).pc = .build → i = j) ∧
    (l.filter fun b => match b with | .built _ => true | _ => false).length ≤ 1 ∧
    (∀ i j, (s.th i).res = none → (s.th i).pc = .build → ClLab.built j ∉ l) ∧
    (∀ i, (s.th i).res = none → (s.th i).pc ≠ .enter → (s.th i).pc ≠ .build → ∃ j, ClLab.built j ∈ l) := by
  have hO := invO_exec h
  refine ⟨hO.uniq, hO.cnt.2, ?_, fun i h1 h2 h3 => hO.cnt.1.2 (hO.rdy i h1 h2 h3)⟩
  intro i j hr hp hj
  have h1 := hO.cnt.1.1 ⟨j, hj⟩
  rw [hO.bld i hr hp] at h1
  cases h1

/-- C112: a call makes at most 13 steps: there is no endless loop (and no retry). -/
theorem C112_bounded (e : Endian) (inp buf : Nat → List Byte) (l : List ClLab) (s : ClState) (h : ClExec e inp buf (clStart buf) l s) (i : Nat) :
    (l.filter fun b => b = .call i ∨ b = .built i ∨ b = .fail i).length ≤ 13 := by
  have h1 := count_exec h i
  have h2 := rank_le (inv_exec h) i
  have h3 : l.filter (fun b => b = .call i ∨ b = .built i ∨ b = .fail i) = l.filter (mine i) := by
    apply List.filter_congr
    intro b _
    cases b <;> simp [mine]
  rw [h3]
  split at h1 <;> omega

/-- C112: no deadlock, and no call has to wait for ever: whatever has happened, a call that is defined on its own and has not ended can be brought to its end without
any failure. -/
theorem C112_finishes (e : Endian) (inp buf : Nat → List Byte) (l : List ClLab) (s : ClState) (h : ClExec e inp buf (clStart buf) l s) (i : Nat)
    (h0 : inp i ≠ []) (hmax : (inp i).length ≤ 99999)
    (hdef : ∀ order dev, order.Perm (List.range 256) → cl842Decompress e order dev (inp i) (buf i) ≠ .ub) (hr : (s.th i).res = none) :
    ∃ l' s' rc, ClExec e inp buf s l' s' ∧ (∀ j, ClLab.fail j ∉ l') ∧ (s'.th i).res = some (.value rc) :=
  finish i ((C56_one_chunk_iff _).2 ⟨List.length_pos_iff.2 h0, hmax⟩) hdef _ l s (Nat.le_refl _) h hr

/-- C112: nothing undefined happens if every call is defined on its own.  Not defined on their own: calls with more than 99999 bytes, see `C112_long_input_undefined`, and streams that are not valid
with a short output buffer (C57). -/
theorem C112_safe (e : Endian) (inp buf : Nat → List Byte) (l : List ClLab) (s : ClState) (h : ClExec e inp buf (clStart buf) l s)
    (hlen : ∀ i, (inp i).length ≤ 99999)
    (hdef : ∀ i, inp i ≠ [] → ∀ order dev, order.Perm (List.range 256) → cl842Decompress e order dev (inp i) (buf i) ≠ .ub) : ¬ ClFault e inp s :=
  no_fault h hlen hdef

/-- C112: the condition on the length is needed: any call with more than 99999 bytes can read beyond its arguments, with no failure before. -/
theorem C112_long_input_undefined (e : Endian) (inp buf : Nat → List Byte) (i : Nat) (h : 99999 < (inp i).length) :
    ∃ l s, ClExec e inp buf (clStart buf) l s ∧ (∀ j, ClLab.fail j ∉ l) ∧ ClFault e inp s := by
  refine ⟨[.built i, .call i], _, .step (.step .init (.begin rfl rfl rfl)) (.built (by rw [set_same]; rfl) (by rw [set_same])), by simp, .inl ⟨i, ?_, ?_, ?_⟩⟩
  · rw [set_same, set_same]; rfl
  · rw [set_same]; exact .inl rfl
  · exact (C56_wrapper_false e [] (fun _ => 0) (inp i) (buf i) h).1

/-- C112: an empty input never gives a value: such a call can only end with an error. -/
theorem C112_empty_input (e : Endian) (inp buf : Nat → List Byte) (l : List ClLab) (s : ClState) (h : ClExec e inp buf (clStart buf) l s) (i : Nat)
    (h0 : inp i = []) (hr : (s.th i).res ≠ none) :
    ((s.th i).res = some .nomem ∨ (s.th i).res = some .escaped) ∧ (s.th i).out = buf i ∧ (s.th i).olen = (buf i).length := by
  have hub : ∀ order dev, cl842Decompress e order dev (inp i) (buf i) = .ub := by
    intro order dev
    rw [h0]
    unfold cl842Decompress
    simp only
    rw [if_pos (by decide)]
  refine ⟨?_, ?_⟩
  · cases hx : (s.th i).res with
    | none => exact absurd hx hr
    | some r =>
      cases r with
      | nomem => exact .inl rfl
      | escaped => exact .inr rfl
      | value x =>
        obtain ⟨rc, order, dev, _, _, hc⟩ := C112_result e inp buf l s h i x hx
        rw [hub] at hc; cases hc
  · rcases (C112_failure e inp buf l s h i).2.2 with hx | ⟨rc, n, order, dev, _, hc, _⟩
    · exact hx
    · rw [hub] at hc; cases hc

/-- C112: calls with streams of the hardware format (of at most 99999 bytes, in whole 8-byte groups) whose data fit: nothing undefined happens, and each of them can come to its end
with its data. -/
theorem C112_valid_streams (e : Endian) (inp buf d : Nat → List Byte) (h0 : ∀ i, inp i ≠ []) (h8 : ∀ i, (inp i).length % 8 = 0)
    (hmax : ∀ i, (inp i).length ≤ 99999) (hd : ∀ i, HwDecodes (inp i) (d i)) (hb : ∀ i, (d i).length ≤ (buf i).length)
    (l : List ClLab) (s : ClState) (h : ClExec e inp buf (clStart buf) l s) :
    ¬ ClFault e inp s ∧
    (∀ i, (s.th i).res ≠ none → ClLab.fail i ∉ l →
      (s.th i).res = some (.value (some none)) ∧ (s.th i).olen = (d i).length ∧ (s.th i).out.take (d i).length = d i) ∧
    ∀ i, (s.th i).res = none → ∃ l' s', ClExec e inp buf s l' s' ∧ (∀ j, ClLab.fail j ∉ l') ∧ (s'.th i).res = some (.value (some none)) ∧
      (s'.th i).olen = (d i).length ∧ (s'.th i).out.take (d i).length = d i := by
  have hdef : ∀ i, ∀ order dev, order.Perm (List.range 256) → cl842Decompress e order dev (inp i) (buf i) ≠ .ub := by
    intro i order dev hord
    rw [C56_wrapper_partial e order hord dev (inp i) (buf i) (d i) (h0 i) (h8 i) (hmax i) (hd i) (hb i)]
    simp
  refine ⟨C112_safe e inp buf l s h hmax fun i _ => hdef i, ?_, ?_⟩
  · intro i hr hf
    cases hx : (s.th i).res with
    | none => exact absurd hx hr
    | some r =>
      cases r with
      | nomem => exact absurd ((fail_exec h i).1 (.inl hx)) hf
      | escaped => exact absurd ((fail_exec h i).1 (.inr hx)) hf
      | value x =>
        obtain ⟨h1, h2, _, h4⟩ := C112_valid_stream e inp buf l s h i x hx (d i) (h0 i) (h8 i) (hmax i) (hd i) (hb i)
        exact ⟨by rw [h1], h2, h4⟩
  · intro i hr
    obtain ⟨l', s', rc, h1, h2, h3⟩ := C112_finishes e inp buf l s h i (h0 i) (hmax i) (hdef i) hr
    obtain ⟨k1, k2, _, k4⟩ := C112_valid_stream e inp buf _ s' (exec_trans h h1) i rc h3 (d i) (h0 i) (h8 i) (hmax i) (hd i) (hb i)
    exact ⟨l', s', h1, h2, by rw [h3, k1], k2, k4⟩

/-- The hypotheses can be met: three calls with the same stream; the first fails while it constructs the decompressor, the two others end with their data. -/
example : ∃ l s, ClExec .little (fun _ => exStream1) (fun _ => List.replicate 8 0) (clStart fun _ => List.replicate 8 0) l s ∧
    (s.th 0).res = some .nomem ∧ (s.th 1).res = some (.value (some none)) ∧ (s.th 2).res = some (.value (some none)) ∧
    (s.th 1).out.take 8 = [1, 2, 3, 4, 5, 6, 7, 8] := by
  have hall := C112_valid_streams .little (fun _ => exStream1) (fun _ => List.replicate 8 0) (fun _ => [1, 2, 3, 4, 5, 6, 7, 8])
    (fun _ => by decide) (fun _ => by decide) (fun _ => by decide) (fun _ => exStream1_hw) (fun _ => by decide)
  have hx0 : ∃ l s, ClExec .little (fun _ => exStream1) (fun _ => List.replicate 8 0) (clStart fun _ => List.replicate 8 0) l s ∧
      (s.th 0).res = some .nomem ∧ (s.th 1).res = none ∧ (s.th 2).res = none :=
    ⟨_, _, .step (.step .init (.begin (i := 0) rfl rfl rfl)) (.fail (i := 0) (by rw [set_same]; rfl) (by rw [set_same]; simp)),
      by rw [set_same], by rw [set_other _ _ (by decide)]; rfl, by rw [set_other _ _ (by decide)]; rfl⟩
  obtain ⟨l0, s0, h0, h00, h01, h02⟩ := hx0
  obtain ⟨l1, s1, h1, _, h11, _, h1d⟩ := (hall l0 s0 h0).2.2 1 h01
  have e1 := exec_trans h0 h1
  have h10 : (s1.th 0).res = some .nomem := by
    rw [C112_stable _ _ _ _ _ _ h1 0 (by rw [h00]; simp)]; exact h00
  by_cases h12 : (s1.th 2).res = none
  · obtain ⟨l2, s2, h2, _, h22, _, _⟩ := (hall _ s1 e1).2.2 2 h12
    refine ⟨_, s2, exec_trans e1 h2, ?_, ?_, h22, ?_⟩
    · rw [C112_stable _ _ _ _ _ _ h2 0 (by rw [h10]; simp)]; exact h10
    · rw [C112_stable _ _ _ _ _ _ h2 1 (by rw [h11]; simp)]; exact h11
    · rw [C112_stable _ _ _ _ _ _ h2 1 (by rw [h11]; simp)]; exact h1d
  · refine ⟨_, s1, e1, h10, h11, ?_, h1d⟩
    refine ((hall _ s1 e1).2.1 2 h12 ?_).1
    intro hf
    rcases List.mem_append.1 hf with hf | hf
    · rename_i hnf _ _
      exact hnf 2 hf
    · have := (fail_exec h0 2).2 hf
      rw [h02] at this
      simp at this

end Lib842.Props
