import Verif.Model.ClSample
/-!
# The host side of the OpenCL decompressor

`/repo/src/ocl/cl842decompress.cpp` 267-457: choice of the devices, and `CLHostDecompressor::decompress` with
all its optional arrays (`Verif.Model.ClSample` has it without arrays, as the sample calls it).

Simplifications: sizes are natural numbers; apart from the queries of `findDevices`, the OpenCL runtime
reports no errors but those for empty buffers; output to the terminal (`m_verbose`) and times are left out.
-/

namespace Lib842
open Spec

/-! ## Choice of the devices -/

/-- `CL_DEVICE_NOT_FOUND` (/repo/src/ocl/cl842decompress.cpp 293, 314, 344) -/
def clDeviceNotFound : Int := -1

/-- Device types; `findDevices` uses the first two (/repo/src/ocl/cl842decompress.cpp 303) -/
inductive ClDevType
  | gpu
  | cpu
  | accelerator
  deriving DecidableEq, Repr

/-- A device: `available` is the result of `getInfo<CL_DEVICE_AVAILABLE>()` (an error code or the answer) (/repo/src/ocl/cl842decompress.cpp 326) -/
structure ClDevice where
  id : Nat
  available : Except Int Bool

/-- A platform: `devices t` is the result of `platform.getDevices(t, …)` (/repo/src/ocl/cl842decompress.cpp 312) -/
structure ClPlatform where
  devices : ClDevType → Except Int (List ClDevice)

/-- `for (auto &device : platformDevices) …`, cl842decompress.cpp 325-334 -/
def pushAvailable : List ClDevice → List ClDevice → Except Int (List ClDevice)
  | [], acc => .ok acc
  | d :: ds, acc =>
    match d.available with
    | .error c => .error c
    | .ok false => pushAvailable ds acc
    | .ok true => pushAvailable ds (acc ++ [d])

/-- `for (auto &platform : platforms) …`, cl842decompress.cpp 309-337: the error thrown, or the value of
`devices` and whether it is returned -/
def scanPlatforms (t : ClDevType) : List ClPlatform → List ClDevice → Except Int (Bool × List ClDevice)
  | [], acc => .ok (false, acc)
  | p :: ps, acc =>
    match p.devices t with
    | .error c => if c = clDeviceNotFound then scanPlatforms t ps acc else .error c
    | .ok l =>
      match pushAvailable l acc with
      | .error c => .error c
      | .ok acc => if acc.isEmpty then scanPlatforms t ps acc else .ok (true, acc)

/-- `for (auto &deviceType : …) …` and what follows, cl842decompress.cpp 303-344 -/
def scanTypes : List ClDevType → List ClPlatform → List ClDevice → Except Int (List ClDevice)
  | [], _, _ => .error clDeviceNotFound
  | t :: ts, ps, acc =>
    match scanPlatforms t ps acc with
    | .error c => .error c
    | .ok (true, acc) => .ok acc
    | .ok (false, acc) => scanTypes ts ps acc

/-- `CLHostDecompressor::findDevices`, cl842decompress.cpp 284-345; `platforms` is the result of
`cl::Platform::get`.  `.error` is the code of the exception. -/
def findDevices (platforms : Except Int (List ClPlatform)) : Except Int (List ClDevice) :=
  match platforms with
  | .error c => .error c
  | .ok ps => if ps.isEmpty then .error clDeviceNotFound else scanTypes [.gpu, .cpu] ps []

/-- The device for which the constructor creates its queue, `m_devices[0]`, cl842decompress.cpp 275-276; the
inner `none` would be an access to an empty vector. -/
def constructorDevice (platforms : Except Int (List ClPlatform)) : Except Int (Option ClDevice) :=
  match findDevices platforms with
  | .error c => .error c
  | .ok ds => .ok ds[0]?

/-! ## `CLHostDecompressor::decompress` -/

/-- What the caller has afterwards.  An element of `rets` is `none` if no work item has stored it (it is then
whatever was in the device memory) (/repo/src/ocl/cl842decompress.cpp 435, 446-456) -/
structure ClHostRes where
  out : List Byte
  olens : Option (List Nat)
  rets : Option (List (Option (Option Errno)))
  deriving DecidableEq, Repr

/-- The value stored last for element `i` (the last stored ones come first) (/repo/src/ocl/decompress.cl 443, 445) -/
def lastStored {α : Type} (l : List (Nat × α)) (i : Nat) : Option α := (l.find? fun p => p.1 == i).map (·.2)

/-- Does the array have the `n` elements that are copied into a vector (361, 368, 375)? -/
def hasElements (n : Nat) (a : Option (List Nat)) : Bool :=
  match a with
  | none => true
  | some l => decide (n ≤ l.length)

/-- Reading the arrays back, 447-456: `n` elements, the others of the caller's array are left alone. -/
def readBack (n : Nat) (olens : Option (List Nat)) (wantRets : Bool) (outLen : Nat) (r : ClOut) : ClHostRes :=
  { out := r.buf.take outLen
    olens := olens.map fun l => (List.range n).map (fun i => (lastStored r.lens i).getD (l.getD i 0)) ++ l.drop n
    rets := if wantRets then some ((List.range n).map (lastStored r.rets)) else none }

/-- `CLHostDecompressor::decompress`, cl842decompress.cpp 348-457.  `same`: are `input` and `output` the same
pointer?  `out`: the output buffer; `ilens`, `olens`, `shuffle`, `wantRets`: the optional arrays; `dev`: contents
of the device buffer for the output; `devTail`: the 64 bytes added to an in-place buffer; `order`: the order of
the work items.  `.ok none`: an exception is thrown. -/
def clHostDecompressArrays (e : Endian) (fmt : ClFormat) (chunkSize stride : Nat) (same : Bool) (inp out : List Byte)
    (ilens olens shuffle : Option (List Nat)) (wantRets : Bool) (dev devTail : List Byte) (order : List Nat) :
    BRes (Option ClHostRes) :=
  let n := hostNumChunks inp.length stride
  -- 357: division by zero; 361, 368, 375: the arrays are copied
  if stride = 0 ∨ hasElements n ilens = false ∨ hasElements n olens = false ∨ hasElements n shuffle = false then .ub
  -- 362, 369, 376, 382: an OpenCL buffer cannot be empty
  else if n = 0 ∧ (ilens.isSome ∨ olens.isSome ∨ shuffle.isSome ∨ wantRets = true) then .ok none
  else if fmt = .inplace then
    if same = false ∨ inp.length ≠ out.length then .ok none
    else do
      let r ← BRes.access (oclLaunch e fmt chunkSize stride 0 0 [] ilens olens n shuffle order (inp ++ devTail))
      .ok (some (readBack n olens wantRets out.length r))
  else if same = true ∧ out.length ≠ 0 then .ok none
  else if fmt = .maybe ∧ inp.length ≠ out.length then .ok none
  else if inp.length = 0 then .ok none
  else do
    let r ← BRes.access (oclLaunch e fmt chunkSize stride 0 0 inp ilens olens n shuffle order dev)
    .ok (some (readBack n olens wantRets out.length r))

end Lib842
