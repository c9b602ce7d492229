import Verif.Proofs.Cancel
/-!
# Cancelling, failing and destroying: how much the streams still do

C69.  `s.log` is what the user of the stream has seen, newest first: in `s.log = l2 ++ e :: l1` the
events of `l2` come after the event `e`.  That `l2` has no `start` means that they belong to the
same operation.
-/

namespace Lib842.Props
open Lib842 Spec

variable {N : Nat} {E : Nat}

/-- C69: after `finalize(true)` and after the destructor has begun, each thread hands over at most
one block. -/
theorem C69_comp_stops {s : CS N} (hE : EpochOk E) (h : CReach (setEpoch E) s) {l1 l2 : List Ev} {e : Ev}
    (hl : s.log = l2 ++ e :: l1) (hs : ∀ x ∈ l2, x.isStart = false) (he : e = .finalize true ∨ e = .destroy) :
    (offsets l2).length ≤ N := by
  have := creach_few (epochSetting_of hE) h l2 e l1 hl hs (by rcases he with rfl | rfl <;> rfl)
  have e1 : offsets (l2 ++ [e]) = offsets l2 ++ offsets [e] := List.filterMap_append
  rw [e1, List.length_append] at this
  omega

/-- C69: after an error has been reported for a block, each other thread hands over at most one
block. -/
theorem C69_comp_error {s : CS N} (hE : EpochOk E) (h : CReach (setEpoch E) s) {l1 l2 : List Ev} {o : Nat}
    (hl : s.log = l2 ++ .failBlock o :: l1) (hs : ∀ x ∈ l2, x.isStart = false) : (offsets l2).length + 1 ≤ N := by
  have := creach_few (epochSetting_of hE) h l2 _ l1 hl hs rfl
  have e1 : offsets (l2 ++ [.failBlock o]) = offsets l2 ++ [o] := List.filterMap_append
  rw [e1, List.length_append] at this
  simp only [List.length_cons, List.length_nil] at this
  omega

/-- C69: after `finalize(true)`, after the destructor has begun, and after a block has been refused,
no thread begins to decompress a block. -/
theorem C69_decomp_stops {s : DS N} (h : DReach s) {l1 l2 : List DEv} {e : DEv} (hl : s.log = l2 ++ e :: l1)
    (hs : ∀ x ∈ l2, x.isStart = false) (he : e = .finalize true ∨ e = .destroy ∨ ∃ b, e = .refused b) :
    begins l2 = [] := by
  refine dreach_none h l2 e l1 hl hs ?_
  rcases he with rfl | rfl | ⟨b, rfl⟩
  · exact .inl rfl
  · exact .inr rfl
  · exact .inl rfl

/-! ## Instances -/

/-- The bound of `C69_comp_stops` is reached: two threads have a block when the operation is
cancelled. -/
theorem exCancel : ((CS.init 2).acts (setEpoch 0)
    (.start (9 * 2 ^ 20) :: [0, 0, 0, 0, 0, 1, 1, 1, 1, 1].map .go ++ .fin true ::
      [0, 0, 0, 0, 0, 1, 1, 1, 1, 1].map .go)).map (·.log) =
    some [.returned 1048576, .block 1048576, .returned 0, .block 0, .finalize true, .start 9437184] := by decide +kernel

theorem C69_comp_stops_tight : ∃ (s : CS 2) (l2 l1 : List Ev), CReach (setEpoch 0) s ∧ s.log = l2 ++ .finalize true :: l1 ∧
    (∀ x ∈ l2, x.isStart = false) ∧ (offsets l2).length = 2 := by
  have h := exCancel
  cases ha : (CS.init 2).acts (setEpoch 0) (.start (9 * 2 ^ 20) :: [0, 0, 0, 0, 0, 1, 1, 1, 1, 1].map .go ++ .fin true ::
      [0, 0, 0, 0, 0, 1, 1, 1, 1, 1].map .go) with
  | none => rw [ha] at h; cases h
  | some s =>
    rw [ha] at h
    exact ⟨s, [.returned 1048576, .block 1048576, .returned 0, .block 0], [.start 9437184], acts_reach .init ha,
      by simpa using h, by decide, by decide⟩

/-- The bound of `C69_comp_error` is reached as well. -/
theorem exCompError : ((CS.init 2).acts (setEpoch 0)
    (.start (9 * 2 ^ 20) :: [0, 0, 0, 0, 0, 1, 1, 1, 1, 1].map .go ++ .bad 1 ::
      [1, 1, 1, 1, 0, 0, 0, 0, 0].map .go)).map (·.log) =
    some [.returned 0, .block 0, .returned 1048576, .failBlock 1048576, .start 9437184] := by decide +kernel

theorem C69_comp_error_tight : ∃ (s : CS 2) (l2 l1 : List Ev) (o : Nat), CReach (setEpoch 0) s ∧
    s.log = l2 ++ .failBlock o :: l1 ∧ (∀ x ∈ l2, x.isStart = false) ∧ (offsets l2).length + 1 = 2 := by
  have h := exCompError
  cases ha : (CS.init 2).acts (setEpoch 0) (.start (9 * 2 ^ 20) :: [0, 0, 0, 0, 0, 1, 1, 1, 1, 1].map .go ++ .bad 1 ::
      [1, 1, 1, 1, 0, 0, 0, 0, 0].map .go) with
  | none => rw [ha] at h; cases h
  | some s =>
    rw [ha] at h
    exact ⟨s, [.returned 0, .block 0, .returned 1048576], [.start 9437184], 1048576, acts_reach .init ha,
      by simpa using h, by decide, by decide⟩

/-- `C69_decomp_stops` on a cancelled operation: two of three blocks are being decompressed, the third
is dropped. -/
theorem exDCancel : ((DS.init 2).acts
    (.start :: [0, 0, 0, 1, 1, 1].map .go ++ .push 1 (some 0) :: .push 2 (some 1) :: .push 3 none :: .go 0 :: .go 1 ::
      .fin true :: [0, 0, 1, 1].map .go)).map (·.log) =
    some [.ended 2 true, .ended 1 true, .finalize true, .begin 2, .begin 1, .push 3, .push 2, .push 1, .start] := by
  decide +kernel

/-- When a block has failed and nobody has been told, other threads may still begin any number of
blocks: here three, with two threads (the failing thread is about to record the error,
DataDecompressionStream.cpp 147-154). -/
theorem exDLate : ((DS.init 2).acts
    (.start :: [0, 0, 0, 1, 1, 1].map .go ++ .push 1 (some 0) :: .push 2 (some 1) :: .push 3 none :: .push 4 none ::
      .push 5 none :: .go 0 :: .bad 0 :: [1, 1, 1, 1, 1, 1].map .go)).map (·.log) =
    some [.ended 4 true, .begin 4, .ended 3 true, .begin 3, .ended 2 true, .begin 2, .ended 1 false, .begin 1, .push 5,
      .push 4, .push 3, .push 2, .push 1, .start] := by
  decide +kernel

end Lib842.Props
