import Verif.Model.SwComp
/-!
# Memory management of the software compressor (`/repo/src/serial/842_compress.c`)

`Model/SwComp.lean` represents the dictionaries (uthash tables of linked lists) by functions and
leaves out `malloc` and `free`.  Here the entries are blocks of memory: a table is the list of its
`struct hlist_node`s, each of which has the list of its `struct node_el`s.  The macros of uthash
and utlist (not part of the repository) act on these lists as documented; what uthash allocates for
itself is left out.  Every use of a table requires all blocks reachable from it to be allocated.

The functions of `Model/SwComp.lean` that do not concern the tables are used as they are.  The
fields `ht8`, `ht4`, `ht2` of `Comp` are carried along but never read.
-/

namespace Lib842

/-- Allocated blocks, a number no block has had so far, and the number of blocks there is room
for (part of the model only, no counterpart in /repo) -/
structure Heap where
  next : Nat
  live : List Nat
  limit : Nat
  deriving DecidableEq, Repr

/-- `malloc`; no check of the result follows in 842_compress.c (lines 188-190, 195-197, 541-548),
so that a failure (`none`) leads to a null dereference. -/
def Heap.malloc (h : Heap) : Option (Nat × Heap) :=
  if h.live.length < h.limit then some (h.next, { h with next := h.next + 1, live := h.next :: h.live })
  else none

/-- `free`; undefined unless the block is allocated (/repo/src/serial/842_compress.c 172, 177, 210, 214) -/
def Heap.free (h : Heap) (c : Nat) : Option Heap :=
  if c ∈ h.live then some { h with live := h.live.erase c } else none

/-- `struct hlist_node2`, `4`, `8` (842_compress.c 39-43, 50-54, 61-65): its block, the key, and the
list of `struct node_el`s (block and index; lines 34-37, 45-48, 56-59) -/
structure HNode (w : Nat) where
  cell : Nat
  data : BitVec w
  els : List (Nat × Nat)
  deriving DecidableEq, Repr

/-- All blocks reachable from the table are allocated (part of the model only, no counterpart in /repo) -/
def okTab {w : Nat} (hp : Heap) (t : List (HNode w)) : Bool :=
  t.all fun h => decide (h.cell ∈ hp.live) && h.els.all fun e => decide (e.1 ∈ hp.live)

/-- Assignment to the list of the entry at `c` (/repo/src/serial/842_compress.c 171, 191, 198) -/
def setEls {w : Nat} (t : List (HNode w)) (c : Nat) (els : List (Nat × Nat)) : List (HNode w) :=
  t.map fun h => if h.cell = c then { h with els := els } else h

/-- First half of `replace_hash`, 842_compress.c 164-181: `HASH_FIND`, `DL_SEARCH_SCALAR`,
`DL_DELETE`, `free`, `DL_COUNT`, `HASH_DEL`, `free` -/
def dropIdx {w : Nat} (hp : Heap) (t : List (HNode w)) (old : BitVec w) (i : Nat) : Option (Heap × List (HNode w)) :=
  if okTab hp t then
    match t.find? (fun h => h.data = old) with
    | none => some (hp, t)
    | some h =>
      match h.els.find? (fun e => e.2 = i) with
      | none => some (hp, t)
      | some e =>
        let els := h.els.eraseP (fun e' => e'.1 = e.1)
        match hp.free e.1 with
        | none => none
        | some hp =>
          if els.length = 0 then
            match hp.free h.cell with
            | none => none
            | some hp => some (hp, t.eraseP (fun h' => h'.cell = h.cell))
          else some (hp, setEls t h.cell els)
  else none

/-- 842_compress.c 186-193: `HASH_FIND`, `malloc` and `HASH_ADD` of a new entry if there is none -/
def getNode {w : Nat} (hp : Heap) (t : List (HNode w)) (new : BitVec w) : Option (HNode w × Heap × List (HNode w)) :=
  match t.find? (fun h => h.data = new) with
  | some h => some (h, hp, t)
  | none =>
    match hp.malloc with
    | none => none
    | some (c, hp) => some (⟨c, new, []⟩, hp, t ++ [⟨c, new, []⟩])

/-- Second half of `replace_hash`, 842_compress.c 186-198: the entry for the new value, `malloc` and `DL_APPEND` -/
def addIdx {w : Nat} (hp : Heap) (t : List (HNode w)) (new : BitVec w) (i : Nat) : Option (Heap × List (HNode w)) :=
  if okTab hp t then
    match getNode hp t new with
    | none => none
    | some (h, hp, t) =>
      match hp.malloc with
      | none => none
      | some (c, hp) => some (hp, setEls t h.cell (h.els ++ [(c, i)]))
  else none

/-- `free` of the elements of a list, 842_compress.c 207-211 -/
def freeEls : List (Nat × Nat) → Heap → Option Heap
  | [], hp => some hp
  | e :: es, hp =>
    match hp.free e.1 with
    | none => none
    | some hp => freeEls es hp

/-- `destroy_hashtable`, 842_compress.c 201-216 -/
def destroyTab {w : Nat} : List (HNode w) → Heap → Option Heap
  | [], hp => some hp
  | h :: t, hp =>
    if okTab hp (h :: t) then
      match freeEls h.els hp with
      | none => none
      | some hp =>
        match hp.free h.cell with
        | none => none
        | some hp => destroyTab t hp
    else none

/-- The memory: the heap, the block of `p`, and the tables `p->htable8`, `4`, `2` -/
structure Mem where
  heap : Heap
  param : Nat
  t8 : List (HNode 64)
  t4 : List (HNode 32)
  t2 : List (HNode 16)

/-- Run a computation that does not concern the tables (part of the model only, no counterpart in /repo) -/
def onComp {α : Type} (x : M Comp α) : M (Comp × Mem) α := fun s =>
  match x s.1 with
  | .ok a p => .ok a (p, s.2)
  | .err e p => .err e (p, s.2)
  | .ub => .ub
  | .timeout => .timeout

/-- Operations on one table (/repo/src/serial/842_compress.c 159-199) -/
def mem8 (f : Heap → List (HNode 64) → Option (Heap × List (HNode 64))) : M (Comp × Mem) Unit :=
  M.update fun s => (f s.2.heap s.2.t8).map fun r => (s.1, { s.2 with heap := r.1, t8 := r.2 })
/-- See `mem8`; /repo/src/serial/842_compress.c 159-199. -/
def mem4 (f : Heap → List (HNode 32) → Option (Heap × List (HNode 32))) : M (Comp × Mem) Unit :=
  M.update fun s => (f s.2.heap s.2.t4).map fun r => (s.1, { s.2 with heap := r.1, t4 := r.2 })
/-- See `mem8`; /repo/src/serial/842_compress.c 159-199. -/
def mem2 (f : Heap → List (HNode 16) → Option (Heap × List (HNode 16))) : M (Comp × Mem) Unit :=
  M.update fun s => (f s.2.heap s.2.t2).map fun r => (s.1, { s.2 with heap := r.1, t2 := r.2 })

/-- `HASH_FIND` and `h->head->index`, 842_compress.c 148-151 -/
def lookTab {w : Nat} (hp : Heap) (t : List (HNode w)) (k : BitVec w) : Option (Option Nat) :=
  if okTab hp t then
    match t.find? (fun h => h.data = k) with
    | none => some none
    | some h =>
      match h.els with
      | [] => some none
      | e :: _ => some (some e.2)
  else none

/-- `find_index(p, 8, n)`, 842_compress.c 143-153 -/
def findIndex8H (n : Nat) : M (Comp × Mem) Bool := do
  onComp (M.update fun p => (arrSet 1 p.index8 n (-1)).map fun a => { p with index8 := a })
  let k ← onComp (M.access fun p => arrGet 1 p.data8 n)
  let r ← M.access fun s => lookTab s.2.heap s.2.t8 k
  match r with
  | none => pure ()
  | some i => onComp (M.update fun p => (arrSet 1 p.index8 n i).map fun a => { p with index8 := a })
  let r ← onComp (M.access fun p => arrGet 1 p.index8 n)
  pure (decide (r ≥ 0))

/-- `find_index(p, 4, n)` -/
def findIndex4H (n : Nat) : M (Comp × Mem) Bool := do
  onComp (M.update fun p => (arrSet 2 p.index4 n (-1)).map fun a => { p with index4 := a })
  let k ← onComp (M.access fun p => arrGet 2 p.data4 n)
  let r ← M.access fun s => lookTab s.2.heap s.2.t4 k
  match r with
  | none => pure ()
  | some i => onComp (M.update fun p => (arrSet 2 p.index4 n i).map fun a => { p with index4 := a })
  let r ← onComp (M.access fun p => arrGet 2 p.index4 n)
  pure (decide (r ≥ 0))

/-- `find_index(p, 2, n)` -/
def findIndex2H (n : Nat) : M (Comp × Mem) Bool := do
  onComp (M.update fun p => (arrSet 4 p.index2 n (-1)).map fun a => { p with index2 := a })
  let k ← onComp (M.access fun p => arrGet 4 p.data2 n)
  let r ← M.access fun s => lookTab s.2.heap s.2.t2 k
  match r with
  | none => pure ()
  | some i => onComp (M.update fun p => (arrSet 4 p.index2 n i).map fun a => { p with index2 := a })
  let r ← onComp (M.access fun p => arrGet 4 p.index2 n)
  pure (decide (r ≥ 0))

/-- `check_index(p, b, n)`, 842_compress.c 155-157 -/
def checkIndex8H (n : Nat) : M (Comp × Mem) Bool := do
  let i ← onComp (M.access fun p => arrGet 1 p.index8 n)
  if i = -2 then findIndex8H n else pure (decide (i ≥ 0))
/-- `check_index(p, 4, n)`, /repo/src/serial/842_compress.c 155-157. -/
def checkIndex4H (n : Nat) : M (Comp × Mem) Bool := do
  let i ← onComp (M.access fun p => arrGet 2 p.index4 n)
  if i = -2 then findIndex4H n else pure (decide (i ≥ 0))
/-- `check_index(p, 2, n)`, /repo/src/serial/842_compress.c 155-157. -/
def checkIndex2H (n : Nat) : M (Comp × Mem) Bool := do
  let i ← onComp (M.access fun p => arrGet 4 p.index2 n)
  if i = -2 then findIndex2H n else pure (decide (i ≥ 0))

/-- The loop of `check_template`, 842_compress.c 449-464 -/
def checkActionsH : List Nat → Nat → M (Comp × Mem) Bool
  | [], _ => pure true
  | t :: ts, b =>
    if isIndex t then do
      let m ←
        if t &&& 0x02 ≠ 0 then checkIndex2H (b >>> 1)
        else if t &&& 0x04 ≠ 0 then checkIndex4H (b >>> 2)
        else if t &&& 0x08 ≠ 0 then checkIndex8H 0
        else pure false
      if m then checkActionsH ts (b + amount t) else pure false
    else checkActionsH ts (b + amount t)

/-- `check_template`, 842_compress.c 441-467 -/
def checkTemplateH (c : Nat) : M (Comp × Mem) Bool :=
  if c ≥ OPS_MAX then pure false
  else do
    let t ← onComp (M.access fun _ => compOps[c]?)
    checkActionsH (t.take 4) 0

/-- `replace_hash(p, 8, i, d)`, 842_compress.c 159-199; the last line sets `p->node8[node_index]`. -/
def replaceHash8H (i d : Nat) : M (Comp × Mem) Unit := do
  let nodeIndex := i + d
  let old ← onComp (M.access fun p => arrGet 256 p.node8 nodeIndex)
  mem8 fun hp t => dropIdx hp t old nodeIndex
  let new ← onComp (M.access fun p => arrGet 1 p.data8 d)
  mem8 fun hp t => addIdx hp t new (nodeIndex % 2 ^ 8)
  onComp (replaceHash8 i d)

/-- `replace_hash(p, 4, i, d)` -/
def replaceHash4H (i d : Nat) : M (Comp × Mem) Unit := do
  let nodeIndex := i + d
  let old ← onComp (M.access fun p => arrGet 512 p.node4 nodeIndex)
  mem4 fun hp t => dropIdx hp t old nodeIndex
  let new ← onComp (M.access fun p => arrGet 2 p.data4 d)
  mem4 fun hp t => addIdx hp t new (nodeIndex % 2 ^ 16)
  onComp (replaceHash4 i d)

/-- `replace_hash(p, 2, i, d)` -/
def replaceHash2H (i d : Nat) : M (Comp × Mem) Unit := do
  let nodeIndex := i + d
  let old ← onComp (M.access fun p => arrGet 256 p.node2 nodeIndex)
  mem2 fun hp t => dropIdx hp t old nodeIndex
  let new ← onComp (M.access fun p => arrGet 4 p.data2 d)
  mem2 fun hp t => addIdx hp t new (nodeIndex % 2 ^ 8)
  onComp (replaceHash2 i d)

/-- `update_hashtables`, 842_compress.c 484-498 -/
def updateHashtablesH : M (Comp × Mem) Unit := do
  let p ← onComp M.get
  let n8 := (p.pos >>> 3) % 2 ^ 8
  let n4 := (p.pos >>> 2) % 2 ^ 9
  let n2 := (p.pos >>> 1) % 2 ^ 8
  replaceHash8H n8 0
  replaceHash4H n4 0
  replaceHash4H n4 1
  replaceHash2H n2 0
  replaceHash2H n2 1
  replaceHash2H n2 2
  replaceHash2H n2 3

/-- The search loop of `process_next`, 842_compress.c 516-519 -/
def findTemplateH : (k i : Nat) → M (Comp × Mem) Nat
  | 0, i => pure i
  | k + 1, i => do
    let m ← checkTemplateH i
    if m then pure i else findTemplateH k (i + 1)

/-- `process_next`, 842_compress.c 503-525 -/
def processNextH (e : Endian) : M (Comp × Mem) Unit := do
  onComp (M.modify fun p =>
    { p with
      index8 := upd p.index8 0 (-2)
      index4 := upd (upd p.index4 0 (-2)) 1 (-2)
      index2 := upd (upd (upd (upd p.index2 0 (-2)) 1 (-2)) 2 (-2)) 3 (-2) })
  let i ← findTemplateH (OPS_MAX - 1) 0
  onComp (addTemplate e i)

/-- One iteration of the main loop, 842_compress.c 594-612 -/
def compStepH (e : Endian) (next last : BitVec 64) (rc : Nat) : M (Comp × Mem) Nat := do
  let rc := if next = last then (rc + 1) % 2 ^ 8 else rc
  if next = last ∧ rc ≤ 0x3f then pure rc
  else if rc ≠ 0 then do
    onComp (M.ignore (addRepeat e rc))
    if next = last then pure 0
    else do
      if next = 0#64 then onComp (liftW (addBits e 0x1C#64 5)) else processNextH e
      pure 0
  else do
    if next = 0#64 then onComp (liftW (addBits e 0x1C#64 5)) else processNextH e
    pure rc

/-- The main loop, 842_compress.c 582-619 -/
def compLoopH (e : Endian) : (fuel : Nat) → (last : BitVec 64) → (rc : Nat) → M (Comp × Mem) Nat
  | 0, _, _ => M.timeout
  | fuel + 1, last, rc => do
    let p ← onComp M.get
    if p.ilen > 7 then do
      let next ← onComp (M.access fun _ => load64 e p.inp p.pos)
      onComp (getNextData e)
      let rc ← compStepH e next last rc
      updateHashtablesH
      onComp (M.modify fun p => { p with pos := p.pos + 8, ilen := p.ilen - 8 })
      compLoopH e fuel next rc
    else pure rc

/-- The body of `sw842_compress` up to `cleanup`, 842_compress.c 575-680 -/
def compBodyH (e : Endian) (addr : Nat) (fuel : Nat) (inp : List Byte) (total : Nat) :
    M (Comp × Mem) Nat := do
  if inp.length < 8 then pure ()
  else do
    let first ← onComp (M.access fun p => load64 e p.inp p.pos)
    let rc ← compLoopH e fuel (~~~ first) 0
    if rc ≠ 0 then onComp (addRepeat e rc) else pure ()
  let p ← onComp M.get
  if p.ilen > 0 then do
    onComp (addShortData e p.ilen)
    onComp (M.modify fun p => { p with pos := p.pos + p.ilen, ilen := 0 })
  else pure ()
  onComp (liftW (addBits e 0x1E#64 5))
  let crc ← onComp (M.access fun _ => crc32be e addr 0#32 inp inp.length)
  onComp (liftW (addBits e (crc.setWidth 64) 32))
  onComp (liftW (compPad total))
  let p ← onComp M.get
  if total - p.w.olen > 0xffffffff then onComp (M.fail .ENOSPC)
  else pure (total - p.w.olen)

/-- `cleanup`, 842_compress.c 683-687 -/
def cleanupH (m : Mem) : Option Heap :=
  match destroyTab m.t8 m.heap with
  | none => none
  | some hp =>
    match destroyTab m.t4 hp with
    | none => none
    | some hp =>
      match destroyTab m.t2 hp with
      | none => none
      | some hp => hp.free m.param

/-- `sw842_compress`, 842_compress.c 537-689, with the heap: the result of the call and the heap on
return; `none` if the use of the heap is undefined. -/
def sw842CompressH (e : Endian) (addr : Nat) (j : CompJunk) (inp buf : List Byte) (hp : Heap) : Option (Call × Heap) :=
  match hp.malloc with
  | none => none
  | some (c, hp) =>
    match compBodyH e addr (inp.length / 8 + 1) inp buf.length (compInit j inp buf, ⟨hp, c, [], [], []⟩) with
    | .ok n s => (cleanupH s.2).map fun hp => (.ret none n s.1.w.buf, hp)
    | .err er s => (cleanupH s.2).map fun hp => (.ret (some er) 0 s.1.w.buf, hp)
    | .ub => none
    | .timeout => none

end Lib842
