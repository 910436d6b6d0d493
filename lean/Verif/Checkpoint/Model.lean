import Verif.ArchData.Model
/-!
Model of `FastCheckpointer` (/repo/sparta/sparta/serialization/checkpoint/FastCheckpointer.hpp) with
`DeltaCheckpoint<VectorStorage>` (DeltaCheckpoint.hpp, Checkpoint.hpp, VectorStorage.hpp), the parts of
Checkpointer.hpp it uses, and the save/restore functions of ArchData (functional/ArchData.hpp 975-1051).

Checkpoint objects are identified by the id they were created with (the key in `chkpts_`), so pointers between
checkpoints are ids. Not modelled: tree nodes and their finalization, the order in which ArchDatas are
enumerated, printing and memory accounting, and the 32-bit width of the counters. A
checkpointer without a scheduler behaves like one whose scheduler always stays at tick 0. `squashCurrentBranch_` is in Verif/Cherry.
-/
namespace Sparta.Checkpoint
open Sparta.ArchData

/-- VectorStorage.hpp 28-140: the stored lines, `none` marks the end of the data of one ArchData -/
abbrev Stream := List (Option (Nat × Data))

/-- `DeltaCheckpoint`: `prev_`, `nexts_`, `is_snapshot_`, whether it is flagged deleted, `tick_`, `data_` -/
structure Node where
  prev : Option Nat
  nexts : List Nat
  snap : Bool
  deleted : Bool
  tick : Nat
  data : Stream

/-- `chkpts_` -/
abbrev Map := Nat → Option Node

/-! ### storing and restoring one ArchData -/

/-- every line flagged as not dirty -/
def undirty (m : AD) : AD := { m with lines := m.lines.map fun p => (p.1, ⟨p.2.data, false⟩) }

/-- ArchData.hpp 980-993 `save`, 263-266 `Line::save`, VectorStorage.hpp 163-184 -/
def save (m : AD) : AD × Stream :=
  (undirty m, (m.lines.filter (·.2.dirty)).map (fun p => some (p.1, p.2.data)) ++ [none])

/-- ArchData.hpp 1001-1013 `saveAll` -/
def saveAll (m : AD) : AD × Stream :=
  (undirty m, m.lines.map (fun p => some (p.1, p.2.data)) ++ [none])

/-- ArchData.hpp 1023-1036 `restore`, 247-250 `Line::restore`, VectorStorage.hpp 198-225; the rest of the stream is
returned. `none`: the assertion of `getLine` fails, or the stream ends without a marker (never produced). -/
def restore (m : AD) : Stream → Option (AD × Stream)
  | [] => none
  | none :: rest => some (m, rest)
  | some (i, d) :: rest =>
    match m.getLine (wrap (i * m.lineSize)) with
    | none => none
    | some q => restore (q.modify i fun _ => ⟨d, false⟩) rest

/-- ArchData.hpp 1046-1051 `restoreAll` -/
def restoreAll (m : AD) (s : Stream) : Option (AD × Stream) := restore m.clean s

/-! ### storing and restoring all of them -/

/-- DeltaCheckpoint.hpp 591-616 `storeSnapshot_`, `storeDelta_` -/
def store (snap : Bool) : List AD → List AD × Stream
  | [] => ([], [])
  | m :: ms =>
    let a := if snap then saveAll m else save m
    let b := store snap ms
    (a.1 :: b.1, a.2 ++ b.2)

/-- DeltaCheckpoint.hpp 562-577 `loadState` -/
def loadState (snap : Bool) : List AD → Stream → Option (List AD)
  | [], _ => some []
  | m :: ms, s =>
    match if snap then restoreAll m s else restore m s with
    | none => none
    | some (q, rest) => (loadState snap ms rest).map (q :: ·)

/-- DeltaCheckpoint.hpp 319-331 `getRestoreChain`, newest first; `none`: a null pointer is followed. The first
number bounds the length of the chain. -/
def restoreChain (chk : Map) : Nat → Nat → Option (List Node)
  | 0, _ => none
  | fuel + 1, id =>
    match chk id with
    | none => none
    | some n =>
      if n.snap then some [n]
      else match n.prev with
        | none => none
        | some p => (restoreChain chk fuel p).map (n :: ·)

/-- states loaded one after the other, oldest first -/
def loadNodes : List Node → List AD → Option (List AD)
  | [], ads => some ads
  | n :: ns, ads => (loadState n.snap ads n.data).bind (loadNodes ns)

/-- DeltaCheckpoint.hpp 386-396 `load` -/
def load (chk : Map) (id : Nat) (ads : List AD) : Option (List AD) :=
  (restoreChain chk (id + 1) id).bind fun ns => loadNodes ns.reverse ads

/-- DeltaCheckpoint.hpp 488-529 `getDistanceToPrevSnapshot`; `none`: terminates -/
def distance (chk : Map) : Nat → Nat → Option Nat
  | 0, _ => none
  | fuel + 1, id =>
    match chk id with
    | none => none
    | some n =>
      if n.snap then some 0
      else match n.prev with
        | none => none
        | some p => (distance chk fuel p).map (· + 1)

/-! ### the tree of checkpoints -/

/-- DeltaCheckpoint.hpp 406-417 `canDelete`; the number bounds the depth -/
def canDelete (chk : Map) : Nat → Nat → Bool
  | 0, _ => false
  | fuel + 1, id =>
    match chk id with
    | none => false
    | some n => n.deleted && n.nexts.all fun c =>
        canDelete chk fuel c || (match chk c with | some m => m.snap | none => false)

/-- Checkpoint.hpp 110-125 `addNext` after `setPrev` (92-94); `none` = threw -/
def adopt (chk : Map) (p c : Nat) : Option Map :=
  match chk c with
  | none => none
  | some m =>
    let chk' := upd chk c (some { m with prev := some p })
    match chk' p with
    | none => none
    | some pn =>
      if m.tick < pn.tick ∨ c ∈ pn.nexts then none
      else some (upd chk' p (some { pn with nexts := pn.nexts ++ [c] }))

def adoptAll (chk : Map) (p : Nat) : List Nat → Option Map
  | [] => some chk
  | c :: cs => (adopt chk p c).bind fun chk' => adoptAll chk' p cs

/-- children of a checkpoint without previous one, Checkpoint.hpp 63-69 -/
def orphan (chk : Map) : List Nat → Option Map
  | [] => some chk
  | c :: cs =>
    match chk c with
    | none => none
    | some m => orphan (upd chk c (some { m with prev := none })) cs

/-- Erasing an element of `chkpts_`: the destructor, Checkpoint.hpp 58-70 with `removeNext` 135-147. An exception
leaves the destructor and ends the program (`none`). -/
def erase (chk : Map) (e : Nat) : Option Map :=
  match chk e with
  | none => none
  | some n =>
    match n.prev with
    | none => (orphan chk n.nexts).map fun chk' => upd chk' e none
    | some p =>
      match chk p with
      | none => none
      | some pn =>
        if e ∈ pn.nexts then
          (adoptAll (upd chk p (some { pn with nexts := pn.nexts.erase e })) p n.nexts).map fun chk' => upd chk' e none
        else none

/-- FastCheckpointer.hpp 851-881 `recursForwardFindAlive_`; the number bounds the depth -/
def findAlive (chk : Map) (cur : Option Nat) : Nat → Nat → Bool
  | 0, _ => false
  | fuel + 1, d =>
    match chk d with
    | none => false
    | some n => n.nexts.foldr (fun c rest =>
        match chk c with
        | none => false
        | some m =>
          if m.snap then false
          else if cur = some c then true
          else if m.deleted = false then true
          else findAlive chk cur fuel c || rest) false

/-- FastCheckpointer.hpp 803-838: the loop of `cleanupChain_`, also counting `num_dead_checkpoints_` down -/
def cleanupLoop (cur head : Option Nat) : Nat → Map → Nat → Option Nat → Nat → Option (Map × Nat)
  | _, chk, dead, none, _ => some (chk, dead)
  | 0, _, _, some _, _ => none
  | fuel + 1, chk, dead, some d, depth =>
    match chk d with
    | none => none
    | some n =>
      if head = some d then some (chk, dead)
      else if n.deleted = false then some (chk, dead)
      else if cur = some d then some (chk, dead)
      else if canDelete chk depth d then
        match erase chk d with
        | none => none
        | some chk' => cleanupLoop cur head fuel chk' (dead - 1) n.prev depth
      else cleanupLoop cur head fuel chk dead n.prev depth

/-- FastCheckpointer.hpp 773-840 `cleanupChain_` -/
def cleanup (cur head : Option Nat) (next : Nat) (chk : Map) (dead : Nat) (d : Nat) : Option (Map × Nat) :=
  if head = some d then some (chk, dead)
  else match chk d with
    | none => none
    | some n =>
      if cur = some d ∨ findAlive chk cur next d = true then
        if n.snap then cleanupLoop cur head next chk dead n.prev next else some (chk, dead)
      else cleanupLoop cur head next chk dead (some d) next

/-! ### the checkpointer -/

/-- FastCheckpointer.hpp 1035-1066 and Checkpointer.hpp members; `now` is the tick of the scheduler -/
structure CP where
  ads : List AD
  chk : Map
  head : Option Nat
  cur : Option Nat
  next : Nat
  thresh : Nat
  alive : Nat
  snaps : Nat
  dead : Nat
  now : Nat

/-- FastCheckpointer.hpp 93-100; `DEFAULT_SNAPSHOT_THRESH` is 20 (19-21) -/
def CP.init (ads : List AD) : CP := ⟨ads, fun _ => none, none, none, 0, 20, 0, 0, 0, 0⟩

/-- `UNIDENTIFIED_CHECKPOINT`, CheckpointBase.hpp 51 -/
def unidentified : Nat := 2 ^ 64 - 1

/-- DeltaCheckpoint.hpp 91-115, the constructor: link to the previous checkpoint and store; `none` = threw -/
def CP.newNode (c : CP) (prev : Option Nat) (snap : Bool) : Option CP :=
  let s := store snap c.ads
  let n : Node := ⟨prev, [], snap, false, c.now, s.2⟩
  let c' := { c with ads := s.1, next := c.next + 1, cur := some c.next, alive := c.alive + 1,
                     snaps := c.snaps + if snap then 1 else 0 }
  match prev with
  | none => if snap then some { c' with chk := upd c.chk c.next (some n) } else none
  | some p =>
    match c.chk p with
    | none => none
    | some pn =>
      if c.now < pn.tick ∨ c.next ∈ pn.nexts then none
      else some { c' with chk := upd (upd c.chk p (some { pn with nexts := pn.nexts ++ [c.next] })) c.next (some n) }

/-- What the caller sees. `died`: the program is terminated or its behaviour is undefined. -/
inductive Res where
  | mem (r : ArchData.Res)
  | threw
  | died
  | done
  | created (id : Nat) (snap : Bool)
  | yes (b : Bool)
  | ids (l : List Nat)
  | nums (alive snaps : Nat)
deriving DecidableEq

/-- Checkpointer.hpp 200-240 `createHead` and FastCheckpointer.hpp 933-958 `createHead_`; `none` = threw -/
def CP.createHead (c : CP) : Option CP :=
  match c.head with
  | some _ => none
  | none => (c.newNode none true).map fun c' => { c' with head := some c.next }

/-- FastCheckpointer.hpp 960-1025 `createCheckpoint_` -/
def CP.create_ (c : CP) (force : Bool) : CP × Res :=
  if c.next = unidentified then (c, .threw)
  else
    match c.head.bind c.chk with
    | none => (c, .threw)
    | some h =>
      if c.now < h.tick then (c, .threw)
      else
        let mk := fun (prev : Nat) (snap : Bool) =>
          match c.newNode (some prev) snap with
          | none => (c, Res.threw)
          | some c' =>
            if snap then
              match cleanup c'.cur c'.head c'.next c'.chk c'.dead c.next with
              | none => (c', Res.died)
              | some (chk, dead) => ({ c' with chk := chk, dead := dead }, Res.created c.next snap)
            else (c', Res.created c.next snap)
        match c.cur with
        | none => match c.head with | some p => mk p force | none => (c, .threw)
        | some p =>
          match c.chk p with
          | none => (c, .died)
          | some pn =>
            if c.now < pn.tick then (c, .threw)
            else match distance c.chk (p + 1) p with
              | none => (c, .died)
              | some d => mk p (force || decide (d ≥ c.thresh))

/-- Checkpointer.hpp 246-254 `createCheckpoint` -/
def CP.create (c : CP) (force : Bool) : CP × Res :=
  match c.head with
  | some _ => c.create_ force
  | none => match c.createHead with | none => (c, .threw) | some c' => c'.create_ force

/-- FastCheckpointer.hpp 220-244 `deleteCheckpoint` -/
def CP.delete (c : CP) (id : Nat) : CP × Res :=
  match c.chk id with
  | none => (c, .threw)
  | some n =>
    let c' := if n.deleted then c
      else { c with dead := c.dead + 1, snaps := c.snaps - (if n.snap then 1 else 0), alive := c.alive - 1,
                    chk := upd c.chk id (some { n with deleted := true }) }
    match cleanup c'.cur c'.head c'.next c'.chk c'.dead id with
    | none => (c', .died)
    | some (chk, dead) => ({ c' with chk := chk, dead := dead }, .done)

/-- FastCheckpointer.hpp 259-284 `loadCheckpoint` -/
def CP.load (c : CP) (id : Nat) : CP × Res :=
  match c.chk id with
  | none => (c, .threw)
  | some n =>
    match Checkpoint.load c.chk id c.ads with
    | none => (c, .died)
    | some ads =>
      let c' := { c with ads := ads, cur := some id, now := n.tick }
      match c.cur with
      | none => (c', .died)
      | some rmv =>
        match cleanup c'.cur c'.head c'.next c'.chk c'.dead rmv with
        | none => (c', .died)
        | some (chk, dead) => ({ c' with chk := chk, dead := dead }, .done)

/-- FastCheckpointer.hpp 313-324 `getCheckpoints` -/
def CP.list (c : CP) : List Nat :=
  (List.range c.next).filter fun i => match c.chk i with | some n => !n.deleted | none => false

/-- FastCheckpointer.hpp 294-304 `getCheckpointsAt` -/
def CP.listAt (c : CP) (t : Nat) : List Nat :=
  (List.range c.next).filter fun i => match c.chk i with | some n => n.tick == t && !n.deleted | none => false

/-- FastCheckpointer.hpp 370-384 `getCheckpointChain`: `getID` of a deleted checkpoint is the unidentified id -/
def chainIds (chk : Map) : Nat → Nat → List Nat
  | 0, _ => []
  | fuel + 1, id =>
    match chk id with
    | none => []
    | some n => (if n.deleted then unidentified else id) :: match n.prev with | none => [] | some p => chainIds chk fuel p

/-- a write through a raw line pointer (`getRawDataPtr`, used for DMI): bytes change, the dirty flag does not -/
def AD.poke (m : AD) (addr : Nat) (bs : List UInt8) : AD :=
  match m.getLine addr with
  | none => m
  | some q => q.modify (q.lineIdx addr) fun l => ⟨overwrite l.data (addr % q.lineSize) bs, l.dirty⟩

inductive Op where
  /-- an access to the `k`-th ArchData -/
  | access (k : Nat) (o : ArchData.Op)
  /-- a raw write to the `k`-th ArchData -/
  | poke (k addr : Nat) (bs : List UInt8)
  /-- the scheduler reaches a tick -/
  | tick (t : Nat)
  | createHead
  | create (force : Bool)
  | load (id : Nat)
  | delete (id : Nat)
  | has (id : Nat)
  | list
  | listAt (t : Nat)
  | counts
  | chain (id : Nat)
  | forgetCurrent
  | setThreshold (n : Nat)

/-- one call -/
def CP.step (c : CP) : Op → CP × Res
  | .access k o =>
    match c.ads[k]? with
    | none => (c, .threw)
    | some m => ({ c with ads := c.ads.set k (m.step o).1 }, .mem (m.step o).2)
  | .poke k a bs =>
    match c.ads[k]? with
    | none => (c, .threw)
    | some m => ({ c with ads := c.ads.set k (AD.poke m a bs) }, .done)
  | .tick t => ({ c with now := t }, .done)
  | .createHead => match c.createHead with | none => (c, .threw) | some c' => (c', .done)
  | .create force => c.create force
  | .load id => c.load id
  | .delete id => c.delete id
  | .has id => (c, .yes (c.chk id).isSome)
  | .list => (c, .ids c.list)
  | .listAt t => (c, .ids (c.listAt t))
  | .counts => (c, .nums c.alive c.snaps)
  | .chain id =>
    match c.head with
    | none => (c, .ids [])
    | some _ => match c.chk id with | none => (c, .threw) | some _ => (c, .ids (chainIds c.chk (id + 1) id))
  | .forgetCurrent => ({ c with cur := match c.head with | some h => some h | none => c.cur }, .done)
  | .setThreshold n => ({ c with thresh := n }, .done)

end Sparta.Checkpoint
