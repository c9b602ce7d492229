import Verif.Props.StreamRoundTrip
import Verif.Props.CompFine
import Verif.Props.DecompFine
/-!
# Round trip through both streams, one access at a time

C39 for the streams of C103 and C104.
-/

namespace Lib842.Props
open Lib842 Spec

section
variable {f g : ChunkFn} (hc : ChunkContract f g) {N N' E : Nat} (hE : EpochOk E) (inp out0 : List Byte)
  (blk : Nat → Block) (nd : Bool)
  -- a finished operation of a compression stream on the buffer `inp`, not cancelled
  {cs : FS N} (hcs : FReach (setEpoch E) cs) {lc2 lc1 : List Ev} {okc : Bool}
  (hcl : cs.log = lc2 ++ .finalized okc :: lc1) (hcd : .destroy ∉ lc1) (hcc : .finalize true ∉ curOp lc1)
  (hsz : opSize lc1 = inp.length)
  -- the blocks it has emitted
  (hblk : ∀ o ∈ offsets (curOp lc1), ∃ ptr abuf rets0 sizes0 buf0, rets0.length = 16 ∧ buf0.length = 2 ^ 20 ∧
    compBlock (trivialChunked f) ptr abuf inp o rets0 sizes0 buf0 = .ok (blk o))
  (hfail : ∀ o, .failBlock o ∈ curOp lc1 → (blk o).offset = 2 ^ 64 - 1)
  (hnd : nd = true ∨ ∀ o ∈ offsets (curOp lc1), ∀ i < 16, (blk o).sizes[i]? ≠ some 65536)

include hc hE hcs hcl hcd hsz hblk hcc hfail hnd

/-- C39: `C39_round_trip_partial` for every interleaving of the single accesses of the threads of both streams and of their users.  For builds
with `NDEBUG`, or if no chunk is stored raw; missing: other builds (see `C36_block_round_trip_debug`: there the program aborts). -/
theorem C39_fine_round_trip_partial
    (hout : inp.length / blockSize * blockSize ≤ out0.length)
    {ds : GS N'} (hds : GReach ds) {ld2 ld1 : List DEv} {okd : Bool} (hdl : ds.log = ld2 ++ .finalized okd :: ld1)
    (hdd : .destroy ∉ ld1) (hdc : .finalize true ∉ dcurOp ld1)
    (hpush : (attempts (dcurOp ld1)).Perm (offsets (curOp lc1)))
    {out : List Byte} (hrun : MemRun (handleBlk nd g blk) out0 (dcurOp ld1) out) :
    okc = true ∧ okd = true ∧
    out = inp.take (inp.length / blockSize * blockSize) ++ out0.drop (inp.length / blockSize * blockSize) := by
  obtain ⟨c, hc1, hc2⟩ := C103_same_traces hE hcs
  obtain ⟨d, hd1, hd2⟩ := C104_same_traces hds
  exact C39_round_trip_partial hc hE inp out0 blk nd hc1 (hc2.trans hcl) hcd hcc hsz hblk hfail hnd hout hd1 (hd2.trans hdl) hdd hdc hpush hrun

end

/-! ## Instance -/

/-- Two threads decompress the two blocks of `exLog`, pushed in the other order, at the same time. -/
def fineRActs : List (GAct 2) :=
  .start 100 :: dfineTurns 14 ++ .push 1048576 :: (List.replicate 12 [GAct.usr, .go 0]).flatten ++
    .push 0 :: (List.replicate 12 [GAct.usr, .go 1]).flatten ++ dfineTurns 12 ++ .fin false 5 :: dfineTurns 40

def fineRLog : List DEv :=
  [.finalized true, .finalize false, .ended 0 true, .ended 1048576 true, .begin 0, .push 0, .begin 1048576, .push 1048576, .start]

theorem fineRActs_log : ((GS.init 2 0).acts fineRActs).log = fineRLog := by decide +kernel

/-- The software implementations, a buffer of 2 MiB and 5 bytes, and threads that overlap: the
hypotheses of the theorem are met, for every content of the buffers. -/
example (inp out0 : List Byte) (hl : inp.length = 2097157) (hl0 : out0.length = 2097157) (e e' : Endian)
    (jo : Nat → OptJunk) (j : Nat → CompJunk) :
    ∃ (cs : FS 2) (ds : GS 2) (lc2 lc1 : List Ev) (ld2 ld1 : List DEv) (blk : Nat → Block) (out : List Byte),
      FReach (setEpoch (2 ^ 20)) cs ∧ cs.log = lc2 ++ .finalized true :: lc1 ∧
      (∀ o ∈ offsets (curOp lc1), compBlock (trivialChunked (swC e j)) 0 0 inp o (List.replicate 16 none) []
        (List.replicate (2 ^ 20) 0) = .ok (blk o)) ∧
      GReach ds ∧ ds.log = ld2 ++ .finalized true :: ld1 ∧
      MemRun (handleBlk true (swD e') blk) out0 (dcurOp ld1) out ∧
      out = inp.take 2097152 ++ out0.drop 2097152 := by
  obtain ⟨cs, hcs, hcl⟩ := fineReach
  have hcl' : cs.log = [] ++ .finalized true :: exLog.tail := hcl
  have hds : GReach ((GS.init 2 0).acts fineRActs) := gacts_reach fineRActs .init
  have hdl' : ((GS.init 2 0).acts fineRActs).log = [] ++ .finalized true :: fineRLog.tail := fineRActs_log
  have hc := (C36_contracts e e' jo j).1
  have hoff : offsets (curOp exLog.tail) = [1048576, 0] := by decide
  have hb : ∀ o : Nat, ∃ b, o ∈ offsets (curOp exLog.tail) → compBlock (trivialChunked (swC e j)) 0 0 inp o
      (List.replicate 16 none) [] (List.replicate (2 ^ 20) 0) = .ok b := by
    intro o
    by_cases ho : o ∈ offsets (curOp exLog.tail)
    · obtain ⟨b, hb, _⟩ := compBlock_holds hc 0 0 inp o (List.replicate 16 none) [] (List.replicate (2 ^ 20) 0)
        (by
          rw [hoff] at ho
          rw [hl]
          rcases List.mem_cons.1 ho with rfl | ho
          · decide
          · rcases List.mem_cons.1 ho with rfl | ho
            · decide
            · cases ho) rfl List.length_replicate
      exact ⟨b, fun _ => hb⟩
    · exact ⟨⟨0, 0, none, [], none⟩, fun h => absurd h ho⟩
  obtain ⟨blk, hblk⟩ := Classical.axiomOfChoice hb
  have hblk' : ∀ o ∈ offsets (curOp exLog.tail), ∃ ptr abuf rets0 sizes0 buf0, rets0.length = 16 ∧
      buf0.length = 2 ^ 20 ∧
      compBlock (trivialChunked (swC e j)) ptr abuf inp o rets0 sizes0 buf0 = .ok (blk o) := fun o ho =>
    ⟨0, 0, _, _, _, rfl, List.length_replicate, hblk o ho⟩
  have hsz : opSize exLog.tail = inp.length := by rw [hl]; decide
  have hout : inp.length / blockSize * blockSize ≤ out0.length := by rw [hl, hl0]; decide
  have hcd : Ev.destroy ∉ exLog.tail := by decide
  obtain ⟨c, hc1, hc2⟩ := C103_same_traces exEpoch hcs
  obtain ⟨out, hrun, -⟩ := C39_run_exists hc exEpoch inp out0 blk true hc1 (hc2.trans hcl') hcd hsz hblk' (.inl rfl) hout
    (dcurOp fineRLog.tail) (by rw [hoff]; decide) (by
      intro b
      show DEv.ended b false ∉ [.finalize false, .ended 0 true, .ended 1048576 true, .begin 0, .push 0,
        .begin 1048576, .push 1048576]
      simp)
  have := (C39_fine_round_trip_partial hc exEpoch inp out0 blk true hcs hcl' hcd (by decide) hsz hblk'
    (by
      intro o ho
      exfalso
      replace ho : Ev.failBlock o ∈ [.finalize false, .returned 1048576, .block 1048576, .returned 0, .block 0] := ho
      simp at ho) (.inl rfl) hout hds hdl' (by decide) (by decide) (by rw [hoff]; exact List.Perm.swap _ _ _) hrun).2.2
  refine ⟨cs, _, _, _, _, _, blk, out, hcs, hcl', hblk, hds, hdl', hrun, ?_⟩
  rw [this, hl, show 2097157 / blockSize * blockSize = 2097152 by decide]

end Lib842.Props
