import Verif.Cherry.Model
import Verif.ArchData.Spec
import Verif.Checkpoint.Spec
/-!
Specification of committing checkpoints: a checkpoint is a copy of all memories; those committed are kept in a
list in the order of the simulated execution.
-/
namespace Sparta.Cherry
open Sparta.Checkpoint (setMems unidentified isWipe)

/-- a checkpoint that is not committed: memories, tick, whether it is a snapshot, the number of deltas since one,
and the ids on the way from the oldest uncommitted checkpoint to this one -/
structure Chk where
  mems : List (Nat → UInt8)
  tick : Nat
  snap : Bool
  dist : Nat
  path : List Nat

/-- `chks` are the checkpoints neither committed nor discarded, `cur` the last created or loaded, `lost` and
`lostSnaps` count those discarded when a new head was forced -/
structure Spec where
  ads : List ArchData.Spec
  chks : Nat → Option Chk
  next : Nat
  cur : Option Nat
  thresh : Nat
  now : Nat
  lost : Nat
  lostSnaps : Nat
  committed : List (Nat × List (Nat → UInt8))

def Spec.init (ads : List ArchData.Spec) : Spec := ⟨ads, fun _ => none, 0, none, 20, 0, 0, 0, []⟩

def Spec.mems (s : Spec) : List (Nat → UInt8) := s.ads.map (·.mem)

def Spec.current (s : Spec) : Option Chk := s.cur.bind s.chks

def Spec.ids (s : Spec) : List Nat := (List.range s.next).filter fun i => (s.chks i).isSome

def Spec.isSnap (s : Spec) (i : Nat) : Bool := match s.chks i with | some k => k.snap | none => false

/-- a new checkpoint of the present memories after those in `path` -/
def Spec.add (s : Spec) (snap : Bool) (dist : Nat) (path : List Nat) : Spec :=
  { s with chks := upd s.chks s.next (some ⟨s.mems, s.now, snap, dist, path ++ [s.next]⟩), next := s.next + 1, cur := some s.next }

def Spec.create (s : Spec) (force : Bool) : Spec × Checkpoint.Res :=
  if s.next = unidentified then (s, .threw)
  else match s.current with
    | none => (s, .threw)
    | some k =>
      if s.now < k.tick then (s, .threw)
      else
        let snap := force || decide (k.dist ≥ s.thresh)
        (s.add snap (if snap then 0 else k.dist + 1) k.path, .created s.next snap)

/-- the last snapshot in a list and what follows it -/
def recent (snap : Nat → Bool) : List Nat → List Nat
  | [] => []
  | i :: l => if l.any snap then recent snap l else i :: l

/-- what comes before -/
def older (snap : Nat → Bool) (l : List Nat) : List Nat := l.take (l.length - (recent snap l).length)

/-- number of snapshots -/
def Spec.snapCount (s : Spec) : Nat := s.ids.countP s.isSnap

def Spec.memsOf (s : Spec) (i : Nat) : Option (Nat × List (Nat → UInt8)) := (s.chks i).map fun k => (k.tick, k.mems)

/-- Committing. With `force` the whole branch is committed and everything else is discarded; a new checkpoint is
the head. Otherwise the branch is committed up to its last snapshot; what follows is kept. -/
def Spec.commit (s : Spec) (force : Bool) : Spec × Res :=
  match s.current with
  | none => (s, .committed [])
  | some k =>
    if force then
      ({ ({ s with chks := fun _ => none } : Spec).add true 0 [] with
          committed := s.committed ++ k.path.filterMap s.memsOf
          lost := s.lost + (s.ids.length - k.path.length)
          lostSnaps := s.lostSnaps + (s.snapCount - k.path.countP s.isSnap) }, .committed k.path)
    else
      ({ s with chks := fun i => if i ∈ recent s.isSnap k.path
                  then (s.chks i).map fun c => { c with path := c.path.filter (· ∈ recent s.isSnap k.path) } else none
                committed := s.committed ++ (older s.isSnap k.path).filterMap s.memsOf },
       .committed (older s.isSnap k.path))

def Spec.base (s : Spec) : Checkpoint.Op → Spec × Checkpoint.Res
  | .access k o =>
    match s.ads[k]? with
    | none => (s, .threw)
    | some m => ({ s with ads := s.ads.set k (m.step o).1 }, .mem (m.step o).2)
  | .tick t => ({ s with now := t }, .done)
  | .createHead => if s.cur = none then (s.add true 0 [], .done) else (s, .threw)
  | .create force => (if s.cur = none then s.add true 0 [] else s).create force
  | .load id =>
    match s.chks id with
    | none => (s, .threw)
    | some k => ({ s with ads := setMems s.ads k.mems, cur := some id, now := k.tick }, .done)
  | .has id => (s, .yes (s.chks id).isSome)
  | .list => (s, .ids s.ids)
  | .counts => (s, .nums (s.ids.length + s.lost) (s.snapCount + s.lostSnaps))
  | .setThreshold n => ({ s with thresh := n }, .done)
  | _ => (s, .done)

def Spec.step (s : Spec) : Op → Spec × Res
  | .base o => ((s.base o).1, .base (s.base o).2)
  | .commit force => s.commit force
  | .stored => (s, .num s.committed.length)

/-- Histories the properties are about: memories are not wiped or written behind the checkpointer's back once
there is a checkpoint, and no checkpoint is deleted. -/
def Spec.legal (s : Spec) : Op → Prop
  | .base (.access k o) =>
    (match s.ads[k]? with | some m => m.legal o | none => True) ∧ (isWipe o = true → s.cur = none)
  | .base (.tick _) | .base .createHead | .base (.create _) | .base (.load _) | .base (.has _) | .base .list
  | .base .counts | .base (.setThreshold _) => True
  | .base _ => False
  | .commit _ => True
  | .stored => True

/-! ### loading -/

/-- memories, and the committed checkpoints -/
structure LSpec where
  ads : List ArchData.Spec
  committed : List (Nat × List (Nat → UInt8))

def LSpec.step (s : LSpec) : LOp → LSpec × Res
  | .access k o =>
    match s.ads[k]? with
    | none => (s, .base .threw)
    | some m => ({ s with ads := s.ads.set k (m.step o).1 }, .base (.mem (m.step o).2))
  | .load idx =>
    match s.committed[idx]? with
    | none => (s, .base .threw)
    | some c => ({ s with ads := setMems s.ads c.2 }, .base .done)
  | .count => (s, .num s.committed.length)

def LSpec.legal (s : LSpec) : LOp → Prop
  | .access k o => match s.ads[k]? with | some m => m.legal o | none => True
  | _ => True

end Sparta.Cherry
