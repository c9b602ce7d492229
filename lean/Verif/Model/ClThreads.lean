import Verif.Model.ClHost
/-!
# Several threads in `cl842_decompress`, `/repo/src/ocl/cl842decompress.cpp`

`cl842_decompress` (461-477) has one decompressor for the whole process, a local static variable, and every call uses its context, its queue and its
program.  Here any number of calls run at the same time, and every call of the OpenCL runtime may fail.  The steps are those of
`CLHostDecompressor::decompress` (348-457) with the arguments of line 470: no shuffle map, no time, format `ALWAYS_COMPRESSED_CHUNKS`.

The runtime: `clCreateBuffer` returns a buffer that nobody else has; the contents of a new buffer are arbitrary.  A kernel that has been enqueued is run by the
device some time later, in one step, its work items in any order (C82 shows that interleaved work items give the same result).  The queue of the code is in
order; here kernels may be run in any order, and copies need not wait for the kernels of other calls, so that there are more executions than in reality.

Simplifications: a `cl::copy` is one step, and so are creation, arguments and enqueueing of the kernel (61-78).  Exceptions other than `cl::Error` come from the construction
of the decompressor only (the program cache, 122-129, 263); `std::bad_alloc` is left out, and so is what is printed.
-/

namespace Lib842

/-- Contents of a device buffer: `cl_ulong`s, `cl_int`s (`none`: nothing has been stored) or bytes (/repo/src/ocl/cl842decompress.cpp 359-384, 423-428) -/
inductive ClBuf where
  | longs (l : List Nat)
  | ints (l : List (Option (Option Errno)))
  | bytes (l : List Byte)

/-- Where a call is (/repo/src/ocl/cl842decompress.cpp 461-477, 348-457) -/
inductive ClPc where
  /-- before the initialisation of the static variable, 465 -/
  | enter
  /-- in the constructor of the decompressor, 267-282 -/
  | build
  /-- before buffer number `k` is made: 0 sizes of the input (362), 1 sizes of the output (369), 2 return values (382), 3 input (423), 4 output (425) -/
  | alloc (k : Nat)
  /-- 428 -/
  | upload
  /-- 429-433 -/
  | launch
  /-- 434 -/
  | wait
  /-- 435 -/
  | getOut
  /-- 446-450 -/
  | getSize
  /-- 452-456 -/
  | getRet
  | finished
  deriving DecidableEq, Repr

/-- How a call ends: it returns what is in `ret` (`none`: whatever was in the device memory), it returns `-ENOMEM` (475), or an exception other than `cl::Error` leaves it
(/repo/src/ocl/cl842decompress.cpp 471-476) -/
inductive ClRes where
  | value (rc : Option (Option Errno))
  | nomem
  | escaped
  deriving DecidableEq, Repr

/-- A call: where it is, its five `cl::Buffer`s (by number), `decompressEvent`, the caller's output buffer and `*olen`, and how it has ended (/repo/src/ocl/cl842decompress.cpp 359-386, 423-425, 461-462) -/
structure ClCall where
  pc : ClPc
  var : Nat → Nat
  ev : Nat
  out : List Byte
  olen : Nat
  res : Option ClRes

/-- The static variable of /repo/src/ocl/cl842decompress.cpp 465 -/
inductive ClObj where
  | no
  | building
  | ready
  deriving DecidableEq, Repr

/-- An enqueued kernel: its event, `numChunks` and its buffers (/repo/src/ocl/cl842decompress.cpp 61-78, 429-433) -/
structure ClCmd where
  ev : Nat
  n : Nat
  isz : Nat
  osz : Nat
  ret : Nat
  inp : Nat
  out : Nat
  deriving DecidableEq

/-- Everything: the static variable, the device memory, the numbers of buffers and of events in use, the kernels that are waiting, the finished events, and the calls
(/repo/src/ocl/cl842decompress.cpp 461-477) -/
structure ClState where
  obj : ClObj
  mem : Nat → ClBuf
  next : Nat
  evs : Nat
  queue : List ClCmd
  fin : Nat → Bool
  th : Nat → ClCall

/-- New state of a call (part of the model only, no counterpart in /repo) -/
def ClState.set (s : ClState) (i : Nat) (c : ClCall) : ClState := { s with th := fun i' => if i' = i then c else s.th i' }

/-- New contents of a device buffer (part of the model only, no counterpart in /repo) -/
def ClState.put (s : ClState) (h : Nat) (b : ClBuf) : ClState := { s with mem := fun h' => if h' = h then b else s.mem h' }

/-- Buffer number `k` of a call with input `inp` and output buffer `buf` when it is new (/repo/src/ocl/cl842decompress.cpp 359-384, 423-426).  `none`: not possible, as a buffer cannot be empty, or
because the arrays have one element only. -/
def clNew (inp buf : List Byte) (junk : Nat → Byte) : Nat → Option ClBuf
  | 0 => if hostElements inp.length clWrapperStride = clWrapperElements then some (.longs [inp.length]) else none
  | 1 => if hostElements inp.length clWrapperStride = clWrapperElements then some (.longs [buf.length]) else none
  | 2 => if hostElements inp.length clWrapperStride = 0 then none
    else some (.ints (List.replicate (hostElements inp.length clWrapperStride) none))
  | 3 => if inp.length = 0 then none else some (.bytes ((List.range inp.length).map junk))
  | 4 => some (.bytes ((List.range (max 1 buf.length)).map junk))
  | _ => none

/-- The kernel that a call enqueues, 429-433 (/repo/src/ocl/cl842decompress.cpp) -/
def ClCall.cmd (c : ClCall) (n ev : Nat) : ClCmd :=
  { ev := ev, n := n, isz := c.var 0, osz := c.var 1, ret := c.var 2, inp := c.var 3, out := c.var 4 }

/-- The device runs a kernel (/repo/src/ocl/decompress.cl 389-446, /repo/src/ocl/cl842decompress.cpp 61-78): the new device memory; `none` if the behaviour is undefined. -/
def clRun (e : Endian) (order : List Nat) (c : ClCmd) (mem : Nat → ClBuf) : Option (Nat → ClBuf) :=
  match mem c.inp, mem c.isz, mem c.out, mem c.osz, mem c.ret with
  | .bytes inp, .longs il, .bytes out, .longs ol, .ints rs => do
    let r ← oclLaunch e .always 65536 clWrapperStride 0 0 inp (some il) (some ol) c.n none order out
    pure fun h =>
      if h = c.out then .bytes r.buf
      else if h = c.osz then .longs ((List.range ol.length).map fun i => (lastStored r.lens i).getD (ol.getD i 0))
      else if h = c.ret then .ints ((List.range rs.length).map fun i => (lastStored r.rets i).orElse fun _ => rs.getD i none)
      else mem h
  | _, _, _, _, _ => none

/-- What a step is (part of the model only, no counterpart in /repo): a step of call `i`, the end of a successful construction, a failure in call `i`, or the device runs a kernel. -/
inductive ClLab where
  | call (i : Nat)
  | built (i : Nat)
  | fail (i : Nat)
  | dev
  deriving DecidableEq

/-- One step; call `i` has input `inp i` and output buffer `buf i` (/repo/src/ocl/cl842decompress.cpp 461-477, 348-457) -/
inductive ClStep (e : Endian) (inp buf : Nat → List Byte) : ClState → ClState → ClLab → Prop
  /-- 465: the first call constructs the decompressor -/
  | begin {s : ClState} {i : Nat} : (s.th i).res = none → (s.th i).pc = .enter → s.obj = .no →
      ClStep e inp buf s ({ s with obj := .building }.set i { s.th i with pc := .build }) (.call i)
  /-- 465: the decompressor is there -/
  | pass {s : ClState} {i : Nat} : (s.th i).res = none → (s.th i).pc = .enter → s.obj = .ready →
      ClStep e inp buf s (s.set i { s.th i with pc := .alloc 0 }) (.call i)
  /-- 282 -/
  | built {s : ClState} {i : Nat} : (s.th i).res = none → (s.th i).pc = .build →
      ClStep e inp buf s ({ s with obj := .ready }.set i { s.th i with pc := .alloc 0 }) (.built i)
  /-- 122-129, 263: the program cache cannot be written -/
  | escape {s : ClState} {i : Nat} : (s.th i).res = none → (s.th i).pc = .build →
      ClStep e inp buf s ({ s with obj := .no }.set i { s.th i with res := some .escaped }) (.fail i)
  /-- 362, 369, 382, 423, 425 -/
  | alloc {s : ClState} {i k : Nat} {junk : Nat → Byte} {b : ClBuf} : (s.th i).res = none → (s.th i).pc = .alloc k →
      clNew (inp i) (buf i) junk k = some b →
      ClStep e inp buf s
        (({ s with next := s.next + 1 }.put s.next b).set i
          { s.th i with pc := if k = 4 then .upload else .alloc (k + 1), var := fun k' => if k' = k then s.next else (s.th i).var k' }) (.call i)
  /-- 428: fails if the buffer is smaller than the input -/
  | upload {s : ClState} {i : Nat} {l : List Byte} : (s.th i).res = none → (s.th i).pc = .upload → s.mem ((s.th i).var 3) = .bytes l →
      (inp i).length ≤ l.length →
      ClStep e inp buf s ((s.put ((s.th i).var 3) (.bytes (inp i ++ l.drop (inp i).length))).set i { s.th i with pc := .launch }) (.call i)
  /-- 429-433 -/
  | launch {s : ClState} {i : Nat} : (s.th i).res = none → (s.th i).pc = .launch →
      ClStep e inp buf s
        ({ s with evs := s.evs + 1, queue := s.queue ++ [(s.th i).cmd (hostNumChunks (inp i).length clWrapperStride) s.evs] }.set i
          { s.th i with pc := .wait, ev := s.evs }) (.call i)
  /-- 434 -/
  | wait {s : ClState} {i : Nat} : (s.th i).res = none → (s.th i).pc = .wait → s.fin (s.th i).ev = true →
      ClStep e inp buf s (s.set i { s.th i with pc := .getOut }) (.call i)
  /-- 435: fails if the buffer is smaller than the output -/
  | getOut {s : ClState} {i : Nat} {l : List Byte} : (s.th i).res = none → (s.th i).pc = .getOut → s.mem ((s.th i).var 4) = .bytes l →
      (buf i).length ≤ l.length →
      ClStep e inp buf s (s.set i { s.th i with pc := .getSize, out := l.take (buf i).length }) (.call i)
  /-- 446-450 -/
  | getSize {s : ClState} {i n : Nat} {l : List Nat} : (s.th i).res = none → (s.th i).pc = .getSize → s.mem ((s.th i).var 1) = .longs (n :: l) →
      ClStep e inp buf s (s.set i { s.th i with pc := .getRet, olen := n }) (.call i)
  /-- 452-456, 471 -/
  | getRet {s : ClState} {i : Nat} {rc : Option (Option Errno)} {l : List (Option (Option Errno))} : (s.th i).res = none → (s.th i).pc = .getRet →
      s.mem ((s.th i).var 2) = .ints (rc :: l) →
      ClStep e inp buf s (s.set i { s.th i with pc := .finished, res := some (.value rc) }) (.call i)
  /-- a call of the OpenCL runtime fails, 472-476 -/
  | fail {s : ClState} {i : Nat} : (s.th i).res = none → (s.th i).pc ≠ .enter →
      ClStep e inp buf s
        ({ s with obj := if (s.th i).pc = ClPc.build then ClObj.no else s.obj }.set i { s.th i with res := some .nomem }) (.fail i)
  | dev {s : ClState} {q1 q2 : List ClCmd} {c : ClCmd} {order : List Nat} {mem : Nat → ClBuf} : s.queue = q1 ++ c :: q2 →
      order.Perm (List.range (oclGlobalSize c.n)) → clRun e order c s.mem = some mem →
      ClStep e inp buf s { s with mem := mem, queue := q1 ++ q2, fin := fun v => if v = c.ev then true else s.fin v } .dev

/-- Executions, with their steps, the last one first (/repo/src/ocl/cl842decompress.cpp 461-477) -/
inductive ClExec (e : Endian) (inp buf : Nat → List Byte) (s₀ : ClState) : List ClLab → ClState → Prop
  | init : ClExec e inp buf s₀ [] s₀
  | step {l : List ClLab} {s s' : ClState} {b : ClLab} : ClExec e inp buf s₀ l s → ClStep e inp buf s s' b → ClExec e inp buf s₀ (b :: l) s'

/-- Before any call has begun (/repo/src/ocl/cl842decompress.cpp 461-465) -/
def clStart (buf : Nat → List Byte) : ClState where
  obj := .no
  mem := fun _ => .bytes []
  next := 0
  evs := 0
  queue := []
  fin := fun _ => false
  th := fun i => { pc := .enter, var := fun _ => 0, ev := 0, out := buf i, olen := (buf i).length, res := none }

/-- Something undefined is about to happen: a call reads its arguments beyond their end (361, 368), or the device runs a kernel whose behaviour is undefined (/repo/src/ocl/cl842decompress.cpp 361, 368, /repo/src/ocl/decompress.cl 389-446) -/
def ClFault (e : Endian) (inp : Nat → List Byte) (s : ClState) : Prop :=
  (∃ i, (s.th i).res = none ∧ ((s.th i).pc = .alloc 0 ∨ (s.th i).pc = .alloc 1) ∧
    clWrapperElements < hostElements (inp i).length clWrapperStride) ∨
  ∃ c ∈ s.queue, ∃ order : List Nat, order.Perm (List.range (oclGlobalSize c.n)) ∧ clRun e order c s.mem = none

end Lib842
