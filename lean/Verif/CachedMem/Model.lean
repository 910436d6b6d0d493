import Verif.MemIf.Model

/-!
# Cached memory

Model of `sparta::memory::CachedMemory` with `StoreData` (/repo/sparta/sparta/memory/CachedMemory.hpp):
several caches on one downstream memory, with the coherency point that the documentation (CachedMemory.hpp
136-137) asks of system memory and that test/CachedMemory/CachedMemory_test.cpp:30-77 implements: a write
that arrives from a cache, or from a device, is merged into all other caches and then written.

The downstream memory is bytes with a block size and a size: peeks and pokes succeed inside it, writes
must also stay in one block. (C101 and C105 prove this of an interface on a memory.) The memory of a cache
is the `MemoryObject` of the ArchData model. `none` is an exception.

Not modelled: write types other than `StoreData`, supplements, the wrap of the write counter at 2^64, the
printing of writes.
-/

namespace Sparta.CachedMem

open Sparta.ArchData (AD)
open Sparta.MemoryMap (wordSize)
open Sparta.MemIf (Node Bytes peekLoop w64)

/-- `StoreData`, CachedMemory.hpp:48-108 -/
structure W where
  uid : Nat
  addr : Nat
  data : Bytes
  prev : Bytes
deriving DecidableEq, Repr

/-- A `CachedMemory`, CachedMemory.hpp:254-276: `cached_memory_`, `outstanding_writes_` (a `std::map` ordered by
the identity, which grows: listed oldest first) and `write_uid_`. -/
structure Cache where
  mem : AD
  writes : List W
  uid : Nat

/-- The caches with the common parameters of their constructors (block size, total size, watermark), and the
downstream memory: block size, size, bytes. -/
structure Sys where
  bs : Nat
  total : Nat
  wm : Nat
  dbs : Nat
  dsize : Nat
  down : Nat → UInt8
  n : Nat
  caches : Nat → Cache

/-- The `DebugMemoryIF` base of a cache, window 0 to the total size, CachedMemory.hpp:286-287. -/
def Sys.node (s : Sys) : Node := ⟨s.bs, 0, s.total, .obj 0⟩

/-- The `DebugMemoryIF` base of the coherency point and of the downstream memory. -/
def Sys.dnode (s : Sys) : Node := ⟨s.dbs, 0, s.dsize, .obj 0⟩

/-- 2^56: the identity of the cache is in the top byte of the identities of its writes, CachedMemory.hpp:290-291 -/
def idUnit : Nat := 2 ^ 56

/-- Construction of all caches, CachedMemory.hpp:279-294: the memory of a cache is filled with 0. -/
def init (lsb total wm dbs dsize n : Nat) (ids : Nat → Nat) (down : Nat → UInt8) : Option Sys :=
  match AD.initMemory lsb 0 1 total with
  | none => none
  | some m =>
    if MemIf.ctorOk (2 ^ lsb) 0 total && MemIf.ctorOk dbs 0 dsize then
      some ⟨2 ^ lsb, total, wm, dbs, dsize, down, n, fun c => ⟨m, [], ids c * idUnit⟩⟩
    else none

/-- `downstream_memory_->peek` -/
def Sys.downPeek (s : Sys) (a k : Nat) : Option Bytes :=
  if s.dnode.inWindow a k then some ((List.range k).map fun j => s.down (a + j)) else none

/-- assignment of bytes -/
def put (d : Nat → UInt8) (a : Nat) (bs : Bytes) : Nat → UInt8 :=
  fun x => if a ≤ x ∧ x < a + bs.length then bs.getD (x - a) 0 else d x

/-- `downstream_memory_->poke` -/
def Sys.downPoke (s : Sys) (a : Nat) (bs : Bytes) : Option Sys :=
  if s.dnode.inWindow a bs.length then some { s with down := put s.down a bs } else none

def Sys.set (s : Sys) (c : Nat) (x : Cache) : Sys := { s with caches := upd s.caches c x }

/-- `tryGetLine(paddr) == nullptr`, ArchData.hpp:714-728; `none`: the address is outside -/
def missing (m : AD) (a : Nat) : Option Bool :=
  if a < m.size then some (m.find (m.lineIdx a)).isNone else none

/-- `getLine(aligned).getRawDataPtr(0)` and a copy of bytes to it, CachedMemory.hpp:326-328 -/
def loadLine (m : AD) (a : Nat) (bs : Bytes) : Option AD :=
  (m.getLine a).map fun q => q.modify (q.lineIdx a) fun l => ⟨ArchData.overwrite l.data 0 bs, l.dirty⟩

/-- `tryRead_` and `tryPeek_`, CachedMemory.hpp:300-311, 351-362 -/
def read_ (s : Sys) (c a k : Nat) : Option (Option Bytes) :=
  match missing (s.caches c).mem a with
  | none => none
  | some true => (s.downPeek a k).map some
  | some false => ((s.caches c).mem.peek a k).map some

/-- `tryRead` of the cache: BlockingMemoryIF.hpp:119-134 -/
def tryRead (s : Sys) (c a k : Nat) : Option (Option Bytes) :=
  if s.node.spans a k then some none
  else if s.node.inWindow a k = false then some none
  else read_ s c a k

/-- `tryPeek` of the cache: DebugMemoryIF.hpp:432-456 -/
def tryPeek (s : Sys) (c a k : Nat) : Option (Option Bytes) :=
  if s.node.inWindow a k then peekLoop s.node (fun a k => read_ s c a k) (k + 1) a (w64 (a + k))
  else some none

/-- The block of an address is loaded on a miss, CachedMemory.hpp:322-328 -/
def fetch (s : Sys) (c a : Nat) : Option AD :=
  match missing (s.caches c).mem a with
  | none => none
  | some true =>
    (s.downPeek (s.node.base a) s.bs).bind fun block => loadLine (s.caches c).mem (s.node.base a) block
  | some false => some (s.caches c).mem

/-- `tryWrite_`, CachedMemory.hpp:315-347 -/
def write_ (s : Sys) (c a : Nat) (bs : Bytes) : Option Sys :=
  let x := s.caches c
  if x.writes.length = s.wm then none
  else
    (fetch s c a).bind fun m =>
      (m.peek a bs.length).bind fun prev =>
        match m.write a bs with
        | (_, false) => none
        | (m, true) => some (s.set c ⟨m, x.writes ++ [⟨x.uid + 1, a, bs, prev⟩], x.uid + 1⟩)

/-- `tryWrite` of the cache: BlockingMemoryIF.hpp:186-201 -/
def tryWrite (s : Sys) (c a : Nat) (bs : Bytes) : Option (Sys × Bool) :=
  if s.node.spans a bs.length then some (s, false)
  else if s.node.inWindow a bs.length = false then some (s, false)
  else (write_ s c a bs).map fun s => (s, true)

/-- On a miss of a poke the new line, filled with 0, is poked downstream, CachedMemory.hpp:368-373 -/
def pokeMiss (s : Sys) (c a : Nat) : Option (Sys × AD) :=
  match missing (s.caches c).mem a with
  | none => none
  | some true =>
    ((s.caches c).mem.getLine (s.node.base a)).bind fun m =>
      (m.find (m.lineIdx (s.node.base a))).bind fun l =>
        (s.downPoke (s.node.base a) ((List.range s.bs).map l.data)).map fun s => (s, m)
  | some false => some (s, (s.caches c).mem)

/-- `tryPoke_`, CachedMemory.hpp:365-377 -/
def poke_ (s : Sys) (c a : Nat) (bs : Bytes) : Option (Sys × Bool) :=
  let x := s.caches c
  (pokeMiss s c a).bind fun r =>
    match r.2.write a bs with
    | (_, false) => none
    | (m, true) => ((r.1.set c ⟨m, x.writes, x.uid⟩).downPoke a bs).map fun s => (s, true)

/-- The loop of `tryPoke`, DebugMemoryIF.hpp:509-525. -/
def pokeLoop (n : Node) (f : Sys → Nat → Bytes → Option (Sys × Bool)) :
    Nat → Sys → Nat → Nat → Bytes → Option (Sys × Bool)
  | 0, _, _, _, _ => none
  | fuel + 1, s, a, stop, bs =>
    let blockEnd := n.base (w64 (a + n.bs))
    if blockEnd ≥ stop then f s a (bs.take (w64 (stop + (wordSize - a))))
    else
      let sizeInBlock := w64 (blockEnd + (wordSize - a))
      match f s a (bs.take sizeInBlock) with
      | none => none
      | some (s, false) => some (s, false)
      | some (s, true) => pokeLoop n f fuel s blockEnd stop (bs.drop sizeInBlock)

/-- `tryPoke` of the cache: DebugMemoryIF.hpp:502-526 -/
def tryPoke (s : Sys) (c a : Nat) (bs : Bytes) : Option (Sys × Bool) :=
  if s.node.inWindow a bs.length then
    pokeLoop s.node (fun s a bs => poke_ s c a bs) (bs.length + 1) s a (w64 (a + bs.length)) bs
  else some (s, false)

def W.covers (w : W) (a : Nat) : Bool := decide (w.addr ≤ a) && decide (a < w.addr + w.data.length)

/-- The inner loop of `mergeWrite`, CachedMemory.hpp:471-485: the oldest write that contains the byte gets it as
its previous value. The result says whether there is one. -/
def collide (a : Nat) (b : UInt8) : List W → List W × Bool
  | [] => ([], false)
  | w :: ws =>
    if w.covers a then ({ w with prev := w.prev.set (a - w.addr) b } :: ws, true)
    else let r := collide a b ws; (w :: r.1, r.2)

/-- The outer loop of `mergeWrite`, CachedMemory.hpp:468-491. -/
def mergeLoop (x : Cache) (a : Nat) : Bytes → Option Cache
  | [] => some x
  | b :: bs =>
    match collide a b x.writes with
    | (ws, true) => mergeLoop { x with writes := ws } (a + 1) bs
    | (_, false) =>
      match x.mem.write a [b] with
      | (_, false) => none
      | (m, true) => mergeLoop { x with mem := m } (a + 1) bs

/-- `mergeWrite`, CachedMemory.hpp:460-495 -/
def merge (x : Cache) (a : Nat) (bs : Bytes) : Option Cache :=
  if x.writes.length > 0 then mergeLoop x a bs
  else
    match x.mem.write a bs with
    | (_, false) => none
    | (m, true) => some { x with mem := m }

/-- Merge into the caches `c`, `c + 1`, ... except `src`, CachedMemory_test.cpp:62-69. -/
def mergeAll (s : Sys) (src : Option Nat) (a : Nat) (bs : Bytes) : Nat → Option Sys
  | 0 => some s
  | c + 1 =>
    match mergeAll s src a bs c with
    | none => none
    | some s =>
      if src = some c then some s
      else (merge (s.caches c) a bs).map fun x => s.set c x

/-- `tryWrite` of the coherency point: the checks of BlockingMemoryIF.hpp:186-201, then CachedMemory_test.cpp:58-73. -/
def sysWrite (s : Sys) (src : Option Nat) (a : Nat) (bs : Bytes) : Option (Sys × Bool) :=
  if s.dnode.spans a bs.length then some (s, false)
  else if s.dnode.inWindow a bs.length = false then some (s, false)
  else (mergeAll s src a bs s.n).map fun s => ({ s with down := put s.down a bs }, true)

/-- `commitWrite`, CachedMemory.hpp:393-418: the result of the write downstream is not looked at -/
def commit (s : Sys) (c uid : Nat) : Option Sys :=
  match (s.caches c).writes with
  | [] => none
  | w :: _ =>
    if w.uid ≠ uid then none
    else (sysWrite s (some c) w.addr w.data).map fun r =>
      r.1.set c { r.1.caches c with writes := (r.1.caches c).writes.tail }

/-- The loop of `dropWrite`, CachedMemory.hpp:440-457, on the writes newest first. -/
def dropLoop (uid : Nat) : AD → List W → Option (AD × List W)
  | m, [] => some (m, [])
  | m, w :: ws =>
    match m.write w.addr w.prev with
    | (_, false) => none
    | (m, true) => if w.uid = uid then some (m, ws) else dropLoop uid m ws

/-- `dropWrite`, CachedMemory.hpp:420-458 -/
def drop (s : Sys) (c uid : Nat) : Option Sys :=
  let x := s.caches c
  if x.writes.any (fun w => w.uid == uid) = false then none
  else (dropLoop uid x.mem x.writes.reverse).map fun r => s.set c ⟨r.1, r.2.reverse, x.uid⟩

inductive Op where
  | tryRead (c a k : Nat)
  | tryWrite (c a : Nat) (bs : Bytes)
  | tryPeek (c a k : Nat)
  | tryPoke (c a : Nat) (bs : Bytes)
  | commit (c uid : Nat)
  | drop (c uid : Nat)
  /-- `getOutstandingWrites`, CachedMemory.hpp:194-196 -/
  | pending (c : Nat)
  /-- `getOutstandingWritesForAddr`, CachedMemory.hpp:381-391 -/
  | pendingFor (c a : Nat)
  /-- `getLastOutstandingWrite`, CachedMemory.hpp:249-252 -/
  | last (c : Nat)
  /-- a write that reaches the coherency point from elsewhere -/
  | device (a : Nat) (bs : Bytes)
deriving DecidableEq, Repr

inductive Res where
  | threw
  | yes
  | no
  | data (d : Bytes)
  | writes (l : List W)
deriving DecidableEq, Repr

/-- One call. The state after `threw` is the state before: what an exception leaves behind is not tracked. -/
def step (s : Sys) : Op → Sys × Res
  | .tryRead c a k =>
    match tryRead s c a k with
    | none => (s, .threw)
    | some none => (s, .no)
    | some (some d) => (s, .data d)
  | .tryPeek c a k =>
    match tryPeek s c a k with
    | none => (s, .threw)
    | some none => (s, .no)
    | some (some d) => (s, .data d)
  | .tryWrite c a bs =>
    match tryWrite s c a bs with
    | none => (s, .threw)
    | some (s, b) => (s, if b then .yes else .no)
  | .tryPoke c a bs =>
    match tryPoke s c a bs with
    | none => (s, .threw)
    | some (s, b) => (s, if b then .yes else .no)
  | .commit c uid =>
    match commit s c uid with
    | none => (s, .threw)
    | some s => (s, .yes)
  | .drop c uid =>
    match drop s c uid with
    | none => (s, .threw)
    | some s => (s, .yes)
  | .pending c => (s, .writes (s.caches c).writes)
  | .pendingFor c a => (s, .writes ((s.caches c).writes.filter fun w => w.covers a))
  | .last c =>
    match (s.caches c).writes.getLast? with
    | none => (s, .threw)
    | some w => (s, .writes [w])
  | .device a bs =>
    match sysWrite s none a bs with
    | none => (s, .threw)
    | some (s, b) => (s, if b then .yes else .no)

end Sparta.CachedMem
