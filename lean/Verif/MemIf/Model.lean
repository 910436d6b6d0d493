import Verif.ArchData.Model
import Verif.MemoryMap.Model

/-!
# Memory interfaces

Model of the memory interface classes of /repo/sparta/sparta/memory: `DebugMemoryIF`,
`BlockingMemoryIF`, `BlockingMemoryIFNode`, `BlockingMemoryObjectIFNode` (on a `MemoryObject`),
`SimpleMemoryMapNode` (on a `SimpleMemoryMap`) and `DMIBlockingMemoryIF`.

A system has memory objects and interface nodes, numbered in order of construction. A node is bound
to a memory object or is a memory map whose mappings name other nodes. `none` is an exception, a
failed assertion, or a recursion or loop that does not end.

Not modelled: supplements (passed through unread), translation interfaces (not used by these
classes), tree node names, `StatisticSet` (the two counters are kept, without wrapping at 2^64),
`ArchData::clean` on the object of a live DMI (its pointer would dangle), and deregistration of
observers while a notification is delivered.
-/

namespace Sparta.MemIf

open Sparta.ArchData (AD)
open Sparta.MemoryMap (wordSize)

abbrev Bytes := List UInt8

/-- What a node forwards to: `binding_` of a `BlockingMemoryObjectIFNode` (MemoryObject.hpp:251) or
the `SimpleMemoryMap` base of a `SimpleMemoryMapNode` (SimpleMemoryMapNode.hpp:30). -/
inductive Kind where
  | obj (o : Nat)
  | map (m : MemoryMap.Map)

/-- `DebugMemoryIF`: `block_size_` and the single element of `acc_windows_`, DebugMemoryIF.hpp:548-564. -/
structure Node where
  bs : Nat
  lo : Nat
  hi : Nat
  kind : Kind

/-- 64 bit arithmetic of `addr_t`. -/
def w64 (k : Nat) : Nat := k % wordSize

/-- `addr & block_mask_`, with `block_mask_ = ~((1 << block_idx_lsb_) - 1)` and
`block_idx_lsb_ = log2(block_size)`, DebugMemoryIF.hpp:188-189. -/
def Node.base (n : Node) (a : Nat) : Nat := a - (a &&& (2 ^ n.bs.log2 - 1))

/-- `doesAccessSpan`, DebugMemoryIF.hpp:394-396. -/
def Node.spans (n : Node) (a k : Nat) : Bool := n.base a != n.base (w64 (w64 (a + k) + (wordSize - 1)))

/-- `isInAccessWindows`, DebugMemoryIF.hpp:363-367. -/
def Node.inWindow (n : Node) (a k : Nat) : Bool := decide (n.lo ≤ a) && decide (w64 (a + k) ≤ n.hi)

/-- The checks of the constructors of `AccessWindow` and `DebugMemoryIF`, DebugMemoryIF.hpp:99-110,
163-228; `isPowerOf2` is the subject of C30. -/
def ctorOk (bs lo hi : Nat) : Bool :=
  decide (lo < hi) && decide (bs ≠ 0) && decide (2 ^ bs.log2 = bs) && decide (lo % bs = 0) &&
    decide (hi % bs = 0)

/-- `ReadAccess` and `PostWriteAccess`, BlockingMemoryIFNode.hpp:53-160: the data of a notification. -/
inductive Note where
  | read (node addr : Nat) (data : Bytes)
  | write (node addr : Nat) (prior tried : Bytes)
deriving DecidableEq, Repr

/-- `DMIBlockingMemoryIF` in the `dmi_ifs_` of a node: the object and offset its raw pointer points
to, its block size and `valid_`, DMIBlockingMemoryIF.hpp:68-75, 176-178. -/
structure Dmi where
  node : Nat
  obj : Nat
  start : Nat
  size : Nat
  valid : Bool
deriving DecidableEq, Repr

/-- All memory objects and interfaces. `reads` and `writes` are `ctr_reads_` and `ctr_writes_`,
`obsR` and `obsW` say if `post_read_noti_` and `post_write_noti_` are observed; `notes` collects the
notifications in order of delivery. -/
structure Sys where
  nObj : Nat
  nNode : Nat
  objs : Nat → Option AD
  nodes : Nat → Option Node
  reads : Nat → Nat
  writes : Nat → Nat
  obsR : Nat → Bool
  obsW : Nat → Bool
  notes : List Note
  dmis : List Dmi

/-- No memory object and no interface. -/
def Sys.empty : Sys :=
  ⟨0, 0, fun _ => none, fun _ => none, fun _ => 0, fun _ => 0, fun _ => false, fun _ => false, [], []⟩

/-! ### Peeks -/

/-- `tryPeek_` of the two node classes, MemoryObject.hpp:357-362 and SimpleMemoryMapNode.hpp:242-254. -/
def peek_ (s : Sys) (inner : Nat → Nat → Nat → Option (Option Bytes)) (n : Node) (a k : Nat) :
    Option (Option Bytes) :=
  match n.kind with
  | .obj o =>
    match s.objs o with
    | none => none
    | some m => (m.peek a k).map some
  | .map mp =>
    match MemoryMap.findMapping mp a with
    | none => none
    | some none => some none
    | some (some m) => inner m.memif (m.mapAddress a) k

/-- The loop of `tryPeek`, DebugMemoryIF.hpp:439-455. -/
def peekLoop (n : Node) (f : Nat → Nat → Option (Option Bytes)) : Nat → Nat → Nat → Option (Option Bytes)
  | 0, _, _ => none
  | fuel + 1, a, stop =>
    let blockEnd := n.base (w64 (a + n.bs))
    if blockEnd ≥ stop then f a (w64 (stop + (wordSize - a)))
    else
      match f a (w64 (blockEnd + (wordSize - a))) with
      | none => none
      | some none => some none
      | some (some d) => (peekLoop n f fuel blockEnd stop).map (fun r => r.map (d ++ ·))

/-- `tryPeek`, DebugMemoryIF.hpp:432-456. The first argument bounds the depth of nested maps. -/
def tryPeek (s : Sys) : Nat → Nat → Nat → Nat → Option (Option Bytes)
  | 0, _, _, _ => none
  | d + 1, i, a, k =>
    match s.nodes i with
    | none => none
    | some n =>
      if n.inWindow a k then peekLoop n (fun a k => peek_ s (tryPeek s d) n a k) (k + 1) a (w64 (a + k))
      else some none

/-! ### Pokes and writes -/

/-- `tryPoke_` and `tryWrite_` of the two node classes, MemoryObject.hpp:365-370, 391-400 and
SimpleMemoryMapNode.hpp:261-273, 224-235: they differ in the function called on the mapped interface. -/
def write_ (s : Sys) (inner : Sys → Nat → Nat → Bytes → Option (Sys × Bool)) (n : Node) (a : Nat)
    (bs : Bytes) : Option (Sys × Bool) :=
  match n.kind with
  | .obj o =>
    match s.objs o with
    | none => none
    | some m =>
      match m.write a bs with
      | (_, false) => none
      | (m', true) => some ({ s with objs := upd s.objs o (some m') }, true)
  | .map mp =>
    match MemoryMap.findMapping mp a with
    | none => none
    | some none => some (s, false)
    | some (some m) => inner s m.memif (m.mapAddress a) bs

/-- The loop of `tryPoke`, DebugMemoryIF.hpp:509-525. -/
def pokeLoop (n : Node) (f : Sys → Nat → Bytes → Option (Sys × Bool)) :
    Nat → Sys → Nat → Nat → Bytes → Option (Sys × Bool)
  | 0, _, _, _, _ => none
  | fuel + 1, s, a, stop, bs =>
    let blockEnd := n.base (w64 (a + n.bs))
    if blockEnd ≥ stop then f s a (bs.take (w64 (stop + (wordSize - a))))
    else
      let sizeInBlock := w64 (blockEnd + (wordSize - a))
      match f s a (bs.take sizeInBlock) with
      | none => none
      | some (s, false) => some (s, false)
      | some (s, true) => pokeLoop n f fuel s blockEnd stop (bs.drop sizeInBlock)

/-- `tryPoke`, DebugMemoryIF.hpp:502-526. -/
def tryPoke : Nat → Sys → Nat → Nat → Bytes → Option (Sys × Bool)
  | 0, _, _, _, _ => none
  | d + 1, s, i, a, bs =>
    match s.nodes i with
    | none => none
    | some n =>
      if n.inWindow a bs.length then
        pokeLoop n (fun s a bs => write_ s (tryPoke d) n a bs) (bs.length + 1) s a (w64 (a + bs.length)) bs
      else some (s, false)

/-- `BlockingMemoryIFNode::tryWrite`, BlockingMemoryIFNode.hpp:405-443. -/
def tryWrite : Nat → Sys → Nat → Nat → Bytes → Option (Sys × Bool)
  | 0, _, _, _, _ => none
  | d + 1, s, i, a, bs =>
    match s.nodes i with
    | none => none
    | some n =>
      let s := { s with writes := upd s.writes i (s.writes i + 1) }
      if n.spans a bs.length then some (s, false)
      else if n.inWindow a bs.length = false then some (s, false)
      else if s.obsW i = false then write_ s (tryWrite d) n a bs
      else
        match tryPeek s (d + 1) i a bs.length with
        | none => none
        | some none => some (s, false)
        | some (some prior) =>
          match write_ s (tryWrite d) n a bs with
          | none => none
          | some (s, false) => some (s, false)
          | some (s, true) => some ({ s with notes := s.notes ++ [.write i a prior bs] }, true)

/-! ### Reads -/

/-- `tryRead_` of the two node classes, MemoryObject.hpp:377-386 and SimpleMemoryMapNode.hpp:204-215. -/
def read_ (s : Sys) (inner : Sys → Nat → Nat → Nat → Option (Sys × Option Bytes)) (n : Node) (a k : Nat) :
    Option (Sys × Option Bytes) :=
  match n.kind with
  | .obj o =>
    match s.objs o with
    | none => none
    | some m => (m.peek a k).map (fun d => (s, some d))
  | .map mp =>
    match MemoryMap.findMapping mp a with
    | none => none
    | some none => some (s, none)
    | some (some m) => inner s m.memif (m.mapAddress a) k

/-- `BlockingMemoryIFNode::tryRead`, BlockingMemoryIFNode.hpp:322-351. -/
def tryRead : Nat → Sys → Nat → Nat → Nat → Option (Sys × Option Bytes)
  | 0, _, _, _, _ => none
  | d + 1, s, i, a, k =>
    match s.nodes i with
    | none => none
    | some n =>
      let s := { s with reads := upd s.reads i (s.reads i + 1) }
      if n.spans a k then some (s, none)
      else if n.inWindow a k = false then some (s, none)
      else if s.obsR i = false then read_ s (tryRead d) n a k
      else
        match read_ s (tryRead d) n a k with
        | none => none
        | some (s, none) => some (s, none)
        | some (s, some data) => some ({ s with notes := s.notes ++ [.read i a data] }, some data)

/-! ### Direct memory interfaces -/

/-- `getDMI`, MemoryObject.hpp:323-341 and SimpleMemoryMapNode.hpp:180-186. The result is the new
system and the DMI, a position in `dmis`, or null. -/
def getDMI : Nat → Sys → Nat → Nat → Nat → Option (Sys × Option Nat)
  | 0, _, _, _, _ => none
  | d + 1, s, i, a, k =>
    match s.nodes i with
    | none => none
    | some n =>
      match n.kind with
      | .map mp =>
        match MemoryMap.findMapping mp a with
        | none => none
        | some none => some (s, none)
        | some (some m) => getDMI d s m.memif (m.mapAddress a) k
      | .obj o =>
        if n.spans a k then some (s, none)
        else
          let aligned := n.base a
          match s.dmis.findIdx? (fun x => x.node == i && x.start == aligned) with
          | some h => some (s, some h)
          | none =>
            match s.objs o with
            | none => none
            | some m =>
              match m.getLine aligned with
              | none => none
              | some m' =>
                if ctorOk m.lineSize aligned (w64 (aligned + m.lineSize)) then
                  some ({ s with objs := upd s.objs o (some m'), dmis := s.dmis ++ [⟨i, o, aligned, m.lineSize, true⟩] },
                    some s.dmis.length)
                else none

/-- The `DebugMemoryIF` base of a DMI: `BlockingMemoryIF("DMI", size, {start_addr, start_addr + size})`. -/
def Dmi.asNode (x : Dmi) : Node := ⟨x.size, x.start, w64 (x.start + x.size), .obj x.obj⟩

/-- `DMIBlockingMemoryIF::tryRead`, DMIBlockingMemoryIF.hpp:99-107, BlockingMemoryIF.hpp:119-134,
DMIBlockingMemoryIF.hpp:138-146. -/
def dmiRead (s : Sys) (h a k : Nat) : Option (Option Bytes) :=
  match s.dmis[h]? with
  | none => none
  | some x =>
    if x.valid = false then some none
    else if x.asNode.spans a k then some none
    else if x.asNode.inWindow a k = false then some none
    else
      match s.objs x.obj with
      | none => none
      | some m =>
        match m.find (x.start / x.size) with
        | none => none
        | some l => some (some ((List.range k).map fun j => l.data (a - x.start + j)))

/-- `DMIBlockingMemoryIF::tryWrite`, DMIBlockingMemoryIF.hpp:113-121, BlockingMemoryIF.hpp:186-201,
DMIBlockingMemoryIF.hpp:150-158. The dirty flag of the line is not set. -/
def dmiWrite (s : Sys) (h a : Nat) (bs : Bytes) : Option (Sys × Bool) :=
  match s.dmis[h]? with
  | none => none
  | some x =>
    if x.valid = false then some (s, false)
    else if x.asNode.spans a bs.length then some (s, false)
    else if x.asNode.inWindow a bs.length = false then some (s, false)
    else
      match s.objs x.obj with
      | none => none
      | some m =>
        match m.find (x.start / x.size) with
        | none => none
        | some _ =>
          some ({ s with objs := upd s.objs x.obj (some (m.modify (x.start / x.size) fun l =>
            ⟨ArchData.overwrite l.data (a - x.start) bs, l.dirty⟩)) }, true)

/-- `invalidateAllDMI` of an object node, MemoryObject.hpp:349-353. -/
def invalidate (s : Sys) (i : Nat) : Sys :=
  { s with dmis := s.dmis.map fun x => if x.node = i then { x with valid := false } else x }

/-! ### The throwing accesses -/

/-- What the throwing accesses throw: the assertion on the size, `MemoryAccessError` for a span, for
the window or for a missing mapping, and the error for an unknown reason. -/
inductive Err where
  | zeroSize | span | window | noMapping | spansMapping | unknown
deriving DecidableEq, Repr

/-- The exception after a refused `tryRead` or `tryWrite`: BlockingMemoryIFNode.hpp:372-382, 468-478 and
SimpleMemoryMapNode.hpp:116-127, 145-156. -/
def accessError (n : Node) (a k : Nat) : Option Err :=
  let tail : Err :=
    if k = 0 then .zeroSize
    else if n.spans a k then .span
    else if n.inWindow a k = false then .window
    else .unknown
  match n.kind with
  | .obj _ => some tail
  | .map mp =>
    match MemoryMap.verifyHasMapping mp a k with
    | none => none
    | some .none => some .noMapping
    | some .spans => some .spansMapping
    | some .ok => some tail

/-- The exception after a refused `tryPeek` or `tryPoke`, DebugMemoryIF.hpp:461-468, 531-538. -/
def debugError (n : Node) (a k : Nat) : Err := if n.inWindow a k = false then .window else .unknown

/-! ### Histories -/

inductive Op where
  /-- construct a `MemoryObject` -/
  | newObj (lsb fill fsz size : Nat)
  /-- construct a `BlockingMemoryObjectIFNode` on an object -/
  | newObjNode (o : Nat)
  /-- construct a `SimpleMemoryMapNode` -/
  | newMapNode (bs total : Nat)
  | addMapping (i start stop memif dest : Nat)
  /-- register or deregister observers of reads and writes -/
  | observe (i : Nat) (r w : Bool)
  | tryRead (i a k : Nat)
  | tryWrite (i a : Nat) (bs : Bytes)
  | tryPeek (i a k : Nat)
  | tryPoke (i a : Nat) (bs : Bytes)
  | read (i a k : Nat)
  | write (i a : Nat) (bs : Bytes)
  | peek (i a k : Nat)
  | poke (i a : Nat) (bs : Bytes)
  | getDMI (i a k : Nat)
  | dmiRead (h a k : Nat)
  | dmiWrite (h a : Nat) (bs : Bytes)
  | invalidate (i : Nat)
deriving DecidableEq, Repr

/-- What the caller sees: an exception or failed assertion; the number of a new object, node or DMI;
`addMapping` refused; `true`; `false`; data; the exceptions of the throwing accesses; null. -/
inductive Res where
  | threw
  | id (n : Nat)
  | refused
  | yes
  | no
  | data (d : Bytes)
  | err (e : Err)
  | null
deriving DecidableEq, Repr

/-- Number a new node. -/
def Sys.addNode (s : Sys) (n : Node) : Sys × Res :=
  ({ s with nNode := s.nNode + 1, nodes := upd s.nodes s.nNode (some n) }, .id s.nNode)

/-- One operation. The state after `threw` is the state before: what an exception leaves behind is
not tracked. -/
def step (s : Sys) : Op → Sys × Res
  | .newObj lsb fill fsz size =>
    match AD.initMemory lsb fill fsz size with
    | none => (s, .threw)
    | some m => ({ s with nObj := s.nObj + 1, objs := upd s.objs s.nObj (some m) }, .id s.nObj)
  | .newObjNode o =>
    match s.objs o with
    | none => (s, .threw)
    | some m => if ctorOk m.lineSize 0 m.size then s.addNode ⟨m.lineSize, 0, m.size, .obj o⟩ else (s, .threw)
  | .newMapNode bs total =>
    if ctorOk bs 0 total then
      match MemoryMap.create bs with
      | none => (s, .threw)
      | some m => s.addNode ⟨bs, 0, total, .map m⟩
    else (s, .threw)
  | .addMapping i start stop memif dest =>
    match s.nodes i, s.nodes memif with
    | some n, some t =>
      match n.kind with
      | .obj _ => (s, .threw)
      | .map mp =>
        match MemoryMap.addMapping mp start stop (some ⟨memif, t.bs, t.hi - t.lo⟩) dest with
        | none => (s, .threw)
        | some (.error _, _) => (s, .refused)
        | some (.ok _, mp) => ({ s with nodes := upd s.nodes i (some { n with kind := .map mp }) }, .yes)
    | _, _ => (s, .threw)
  | .observe i r w => ({ s with obsR := upd s.obsR i r, obsW := upd s.obsW i w }, .yes)
  | .tryRead i a k =>
    match tryRead (i + 1) s i a k with
    | none => (s, .threw)
    | some (s, none) => (s, .no)
    | some (s, some d) => (s, .data d)
  | .tryWrite i a bs =>
    match tryWrite (i + 1) s i a bs with
    | none => (s, .threw)
    | some (s, false) => (s, .no)
    | some (s, true) => (s, .yes)
  | .tryPeek i a k =>
    match tryPeek s (i + 1) i a k with
    | none => (s, .threw)
    | some none => (s, .no)
    | some (some d) => (s, .data d)
  | .tryPoke i a bs =>
    match tryPoke (i + 1) s i a bs with
    | none => (s, .threw)
    | some (s, false) => (s, .no)
    | some (s, true) => (s, .yes)
  | .read i a k =>
    match tryRead (i + 1) s i a k, s.nodes i with
    | some (s, none), some n => (s, match accessError n a k with | none => .threw | some e => .err e)
    | some (s, some d), _ => (s, .data d)
    | _, _ => (s, .threw)
  | .write i a bs =>
    match tryWrite (i + 1) s i a bs, s.nodes i with
    | some (s, false), some n => (s, match accessError n a bs.length with | none => .threw | some e => .err e)
    | some (s, true), _ => (s, .yes)
    | _, _ => (s, .threw)
  | .peek i a k =>
    match tryPeek s (i + 1) i a k, s.nodes i with
    | some none, some n => (s, .err (debugError n a k))
    | some (some d), _ => (s, .data d)
    | _, _ => (s, .threw)
  | .poke i a bs =>
    match tryPoke (i + 1) s i a bs, s.nodes i with
    | some (s, false), some n => (s, .err (debugError n a bs.length))
    | some (s, true), _ => (s, .yes)
    | _, _ => (s, .threw)
  | .getDMI i a k =>
    match getDMI (i + 1) s i a k with
    | none => (s, .threw)
    | some (s, none) => (s, .null)
    | some (s, some h) => (s, .id h)
  | .dmiRead h a k =>
    match dmiRead s h a k with
    | none => (s, .threw)
    | some none => (s, .no)
    | some (some d) => (s, .data d)
  | .dmiWrite h a bs =>
    match dmiWrite s h a bs with
    | none => (s, .threw)
    | some (s, false) => (s, .no)
    | some (s, true) => (s, .yes)
  | .invalidate i => (invalidate s i, .yes)

end Sparta.MemIf
