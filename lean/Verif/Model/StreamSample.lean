import Verif.Model.CompStream
import Verif.Model.DecompStream
import Verif.Model.StreamBlock
import Verif.Model.Sample
import Verif.SpecMem
/-!
# The sample program `compdecomp_streams`

`sample/compdecomp_streams.cpp`: the main thread, a compression stream with its threads, a
decompression stream with its threads, and the variables that the callbacks share with the main
thread, as one transition system.

* `blk o` is the block that `handle_block` of the compression stream returns for offset `o`
  (`compBlock` in `Verif/Model/StreamBlock.lean`).
* A callback takes effect when it is called (the event is added to the trace); the thread may stay in
  it for a while after that.
* While a thread is in `handle_block` of the decompression stream, the bytes of its block can change
  in any way (`Flux`); at the end they are what `decompBlock` makes of them.
* The streams are constructed before the program starts (their threads only wait), `aligned_alloc`
  succeeds, times and output are left out.
-/

namespace Lib842
open Spec

/-- Where the main thread is in `compress_benchmark_core`, compdecomp_streams.cpp 99-240. -/
inductive SPc
  /-- before `cstream.start`, 160 -/
  | cStart
  /-- before `comp_error = false`, 170 -/
  | cClear
  /-- before `cstream.finalize`, 171 -/
  | cFinalize
  /-- in `comp_finished.wait()`, 177 -/
  | cWait
  /-- before the test of `comp_error`, 178, after which `cstream` is destroyed -/
  | cTest
  /-- in the destructor of `cstream`; `ok`: the function has not failed -/
  | cJoin (ok : Bool)
  /-- before `dstream.start`, 208 -/
  | dStart
  /-- before `push_block` for the block number `i`, 209-212 -/
  | dPush (i : Nat)
  /-- before `dstream.finalize`, 216 -/
  | dFinalize
  /-- in `decomp_finished.wait()`, 222 -/
  | dWait
  /-- before the test of `decomp_error`, 223, after which `dstream` is destroyed -/
  | dTest
  /-- in the destructor of `dstream` -/
  | dJoin (ok : Bool)
  /-- before the comparison, 232 -/
  | verify
  /-- the function has returned -/
  | done (ok : Bool)
  deriving DecidableEq, Repr

/-- The program (/repo/sample/compdecomp_streams.cpp 99-240) -/
structure SS (N N' : Nat) where
  pc : SPc
  cs : CS N
  ds : DS N'
  /-- `comp_blocks` (when a block has been pushed, what is left of it is only counted) -/
  blocks : List Block
  /-- `comp_error` -/
  cerr : Bool
  /-- `comp_finished` has been counted down -/
  cdone : Bool
  /-- `*olen`, when it has been set -/
  olen : Option Nat
  /-- `decomp_error` -/
  derr : Bool
  /-- `decomp_finished` has been counted down -/
  ddone : Bool
  /-- `decompressed` -/
  mem : List Byte

/-- What does not change: the input, the blocks, the configuration and the implementation (/repo/sample/compdecomp_streams.cpp 99, 130-131) -/
structure SCfg where
  inp : List Byte
  blk : Nat → Block
  nd : Bool
  dc : ChunkedFn

variable {N N' : Nat}

/-- 104-110, 149-157, 200-204, 214-215; the streams and `decomp_error` are there from the beginning. -/
def SS.init (c : SCfg) : SS N N' where
  pc := .cStart
  cs := CS.init N
  ds := DS.init N'
  blocks := []
  cerr := false
  cdone := false
  olen := none
  derr := false
  ddone := false
  mem := List.replicate c.inp.length 0

/-- The block callback, 161-167, and the finalize callback, 171-175 -/
def SS.onEv (c : SCfg) (s : SS N N') : Ev → SS N N'
  | .block o | .failBlock o =>
    let cerr := s.cerr || (c.blk o).offset == SIZE_MAX
    { s with cerr := cerr, blocks := if cerr then s.blocks else s.blocks ++ [c.blk o] }
  | .finalized ok => { s with cerr := s.cerr || !ok, cdone := true }
  | _ => s

/-- The finalize callback of the decompression stream, 216-220 -/
def SS.onDEv (s : SS N N') : DEv → SS N N'
  | .finalized ok => { s with derr := !ok, ddone := true }
  | _ => s

/-- `handle_block` of the decompression stream for the block with offset `n` (/repo/src/stream/DataDecompressionStream.cpp 210-256) -/
def sHandle (c : SCfg) (blocks : List Block) (n : Nat) (m : List Byte) (ok : Bool) (m' : List Byte) : Prop :=
  ∃ b ∈ blocks, b.offset = n ∧ ∃ ptr abuf rets, rets.length = 16 ∧ decompBlock c.nd c.dc ptr abuf b rets m = .ok (ok, m')

/-- `handle_block` of the compression stream fails exactly if it returns the error block,
DataCompressionStream.cpp 149-151. -/
def CHandle (c : SCfg) (t : Fin N) (s s' : CS N) : Prop :=
  ((s.thr t).pc = .handle → (s'.thr t).pc = .deliver true → (c.blk (s.thr t).off).offset ≠ SIZE_MAX) ∧
  ((s.thr t).pc = .handle → (s'.thr t).pc = .failed → (c.blk (s.thr t).off).offset = SIZE_MAX)

/-- Steps of the worker threads (/repo/src/stream/DataCompressionStream.cpp 95-228, /repo/src/stream/DataDecompressionStream.cpp 91-208) -/
inductive SWork (c : SCfg) (s : SS N N') : SS N N' → Prop
  | comp {t : Fin N} {cs' : CS N} (h : CWork (setEpoch 0) t s.cs cs') (hh : CHandle c t s.cs cs')
      (hl : cs'.log = s.cs.log) : SWork c s { s with cs := cs' }
  | compEv {t : Fin N} {cs' : CS N} {e : Ev} (h : CWork (setEpoch 0) t s.cs cs') (hh : CHandle c t s.cs cs')
      (hl : cs'.log = e :: s.cs.log) : SWork c s ({ s with cs := cs' }.onEv c e)
  | decomp {t : Fin N'} {ds' : DS N'} {m' : List Byte} (h : DWork t s.ds ds') (hl : ds'.log = s.ds.log)
      (hm : Flux (dcurOp ds'.log) s.mem m') : SWork c s { s with ds := ds', mem := m' }
  | decompEnd {t : Fin N'} {ds' : DS N'} {b : Nat} {ok : Bool} {m m' : List Byte} (h : DWork t s.ds ds')
      (hl : ds'.log = .ended b ok :: s.ds.log) (hh : sHandle c s.blocks b s.mem ok m) (hm : Flux (dcurOp ds'.log) m m') :
      SWork c s { s with ds := ds', mem := m' }
  | decompEv {t : Fin N'} {ds' : DS N'} {e : DEv} {m' : List Byte} (h : DWork t s.ds ds')
      (hl : ds'.log = e :: s.ds.log) (he : ∀ b ok, e ≠ .ended b ok) (hm : Flux (dcurOp ds'.log) s.mem m') :
      SWork c s ({ s with ds := ds', mem := m' }.onDEv e)

/-- Steps of the main thread; calls of the streams are recognised by the event they add to the
trace (/repo/sample/compdecomp_streams.cpp 99-240) -/
inductive SMain (c : SCfg) (s : SS N N') : SS N N' → Prop
  | cStart {cs' : CS N} (hp : s.pc = .cStart) (hu : CUser s.cs cs') (hl : cs'.log = .start c.inp.length :: s.cs.log) :
      SMain c s { s with pc := .cClear, cs := cs' }
  | cClear (hp : s.pc = .cClear) : SMain c s { s with pc := .cFinalize, cerr := false }
  | cFinalize {cs' : CS N} (hp : s.pc = .cFinalize) (hu : CUser s.cs cs') (hl : cs'.log = .finalize false :: s.cs.log) :
      SMain c s { s with pc := .cWait, cs := cs' }
  | cWait (hp : s.pc = .cWait) (hd : s.cdone = true) : SMain c s { s with pc := .cTest }
  | cTest {cs' : CS N} (hp : s.pc = .cTest) (hu : CUser s.cs cs') (hl : cs'.log = .destroy :: s.cs.log) :
      SMain c s { s with pc := .cJoin (!s.cerr), cs := cs' }
  | cJoinFail (hp : s.pc = .cJoin false) (hj : ∀ t, (s.cs.thr t).pc = .done) : SMain c s { s with pc := .done false }
  | cJoin (hp : s.pc = .cJoin true) (hj : ∀ t, (s.cs.thr t).pc = .done) :
      SMain c s { s with pc := .dStart, olen := some (s.blocks.map fun b => b.sizes.sum).sum }
  | dStart {ds' : DS N'} (hp : s.pc = .dStart) (hu : DUser s.ds ds') (hl : ds'.log = .start :: s.ds.log) :
      SMain c s { s with pc := .dPush 0, ds := ds' }
  | dPush {ds' : DS N'} {i : Nat} {b : Block} (hp : s.pc = .dPush i) (hb : s.blocks[i]? = some b) (hu : DUser s.ds ds')
      (hl : ds'.log = .push b.offset :: s.ds.log) : SMain c s { s with pc := .dPush (i + 1), ds := ds' }
  | dRefused {ds' : DS N'} {i : Nat} {b : Block} (hp : s.pc = .dPush i) (hb : s.blocks[i]? = some b) (hu : DUser s.ds ds')
      (hl : ds'.log = .refused b.offset :: s.ds.log) : SMain c s { s with pc := .dFinalize, ds := ds' }
  | dPushEnd {i : Nat} (hp : s.pc = .dPush i) (hb : s.blocks[i]? = none) : SMain c s { s with pc := .dFinalize }
  | dFinalize {ds' : DS N'} (hp : s.pc = .dFinalize) (hu : DUser s.ds ds') (hl : ds'.log = .finalize false :: s.ds.log) :
      SMain c s { s with pc := .dWait, ds := ds' }
  | dWait (hp : s.pc = .dWait) (hd : s.ddone = true) : SMain c s { s with pc := .dTest }
  | dTest {ds' : DS N'} (hp : s.pc = .dTest) (hu : DUser s.ds ds') (hl : ds'.log = .destroy :: s.ds.log) :
      SMain c s { s with pc := .dJoin (!s.derr), ds := ds' }
  | dJoinFail (hp : s.pc = .dJoin false) (hj : ∀ t, (s.ds.thr t).pc = .done) : SMain c s { s with pc := .done false }
  | dJoin (hp : s.pc = .dJoin true) (hj : ∀ t, (s.ds.thr t).pc = .done) : SMain c s { s with pc := .verify }
  | verify (hp : s.pc = .verify) :
      SMain c s { s with pc := .done (decide (c.inp.length = s.blocks.length * blockSize ∧ c.inp = s.mem.take c.inp.length)) }

/-- Wakeups without a notification (waits of /repo/src/stream/DataCompressionStream.cpp 113, 177, /repo/src/stream/DataDecompressionStream.cpp 109, 128, /repo/include/lib842/detail/latch.h 36) -/
inductive SSpurious (s : SS N N') : SS N N' → Prop
  | comp {cs' : CS N} (h : CSpurious s.cs cs') : SSpurious s { s with cs := cs' }
  | decomp {ds' : DS N'} (h : DSpurious s.ds ds') : SSpurious s { s with ds := ds' }

/-- All executions (of /repo/sample/compdecomp_streams.cpp 99-240) -/
inductive SReach (c : SCfg) : SS N N' → Prop
  | init : SReach c (SS.init c)
  | work {s s' : SS N N'} : SReach c s → SWork c s s' → SReach c s'
  | main {s s' : SS N N'} : SReach c s → SMain c s s' → SReach c s'
  | spurious {s s' : SS N N'} : SReach c s → SSpurious s s' → SReach c s'

/-- Steps other than spurious wakeups (/repo/sample/compdecomp_streams.cpp 99-240) -/
def SStep (c : SCfg) (s s' : SS N N') : Prop := SWork c s s' ∨ SMain c s s'

/-- `comp_error` is accessed without the mutex by the main thread in 170, and with it by the block
callback of a thread that delivers a block, 162-166: both can be next. -/
def CerrRace (s : SS N N') : Prop := s.pc = .cClear ∧ ∃ t ok, (s.cs.thr t).pc = .deliver ok

/-! ## The whole program -/

/-- `blk o` is a block that `handle_block` can return for the offset `o`, for all whole blocks of the
input (/repo/src/stream/DataCompressionStream.cpp 231-276) -/
def BlocksOf (f : ChunkFn) (inp : List Byte) (blk : Nat → Block) : Prop :=
  ∀ o, o % blockSize = 0 → o + blockSize ≤ inp.length → ∃ ptr abuf rets0 sizes0 buf0, rets0.length = 16 ∧
    buf0.length = 2 ^ 20 ∧ compBlock (trivialChunked f) ptr abuf inp o rets0 sizes0 buf0 = .ok (blk o)

/-- Possible results of compdecomp_driver.c 160-198 for the input `inp`, with the chunk size
`BLOCK_SIZE` (compdecomp_streams.cpp 265-269) and an implementation with trivial chunked functions;
`T` is `num_threads`. -/
def StreamsRun (f g : ChunkFn) (T : Nat) (nd : Bool) (inp : List Byte) (r : Bool) : Prop :=
  if inp.length > blockSize then
    ∃ blk, BlocksOf f inp blk ∧ ∃ s : SS T T, SReach ⟨inp, blk, nd, trivialChunked g⟩ s ∧ s.pc = .done r
  else
    ∃ ain aout adec pref d, simpleTest (Impl.trivial f g 1 pref) ain aout adec inp (List.replicate (inp.length * 2) 0)
      (List.replicate inp.length 0) = .ok (r, d)

/-- Possible results of `compdecomp`, compdecomp_driver.c 153-201: `file` is `none` without an argument,
`some none` if the file cannot be read. -/
inductive StreamsExit (f g : ChunkFn) (T : Nat) (nd : Bool) : Option (Option (List Byte)) → Bool → Prop
  | unreadable : StreamsExit f g T nd (some none) false
  | file {contents inp : List Byte} {r : Bool} (hf : readFile contents blockSize = .ok inp)
      (h : StreamsRun f g T nd inp r) : StreamsExit f g T nd (some (some contents)) r
  | test {r : Bool} (h : StreamsRun f g T nd testString r) : StreamsExit f g T nd none r

end Lib842
