import Verif.Checkpoint.Model
import Verif.ArchData.Spec
/-!
Specification of checkpointing: a checkpoint is a copy of all memories, kept until it is deleted.
-/
namespace Sparta.Checkpoint

/-- a checkpoint: the memory contents, the tick, whether it is a snapshot, how many deltas follow its snapshot,
whether it was deleted, and the checkpoint it was created from -/
structure Chk where
  mems : List (Nat → UInt8)
  tick : Nat
  snap : Bool
  dist : Nat
  deleted : Bool
  parent : Option Nat

/-- checkpoints are numbered in order of creation; `cur` is the one created or loaded last -/
structure Spec where
  ads : List ArchData.Spec
  chks : List Chk
  cur : Option Nat
  thresh : Nat
  now : Nat
  loaded : Bool

def Spec.init (ads : List ArchData.Spec) : Spec := ⟨ads, [], none, 20, 0, false⟩

def Spec.mems (s : Spec) : List (Nat → UInt8) := s.ads.map (·.mem)

def Spec.alive (s : Spec) (id : Nat) : Bool :=
  match s.chks[id]? with
  | some k => !k.deleted
  | none => false

/-- the current checkpoint -/
def Spec.current (s : Spec) : Option Chk := s.cur.bind fun i => s.chks[i]?

def Spec.add (s : Spec) (snap : Bool) (dist : Nat) : Spec :=
  { s with chks := s.chks ++ [⟨s.mems, s.now, snap, dist, false, s.cur⟩], cur := some s.chks.length }

def Spec.create (s : Spec) (force : Bool) : Spec × Res :=
  if s.chks.length = unidentified then (s, .threw)
  else match s.current with
    | none => (s, .threw)
    | some k =>
      if s.now < k.tick then (s, .threw)
      else
        let snap := force || decide (k.dist ≥ s.thresh)
        (s.add snap (if snap then 0 else k.dist + 1), .created s.chks.length snap)

def setMems : List ArchData.Spec → List (Nat → UInt8) → List ArchData.Spec
  | a :: as, m :: ms => { a with mem := m } :: setMems as ms
  | _, _ => []

def Spec.step (s : Spec) : Op → Spec × Res
  | .access k o =>
    match s.ads[k]? with
    | none => (s, .threw)
    | some m => ({ s with ads := s.ads.set k (m.step o).1 }, .mem (m.step o).2)
  | .poke _ _ _ => (s, .done)
  | .tick t => ({ s with now := t }, .done)
  | .createHead => if s.chks = [] then (s.add true 0, .done) else (s, .threw)
  | .create force => (if s.chks = [] then s.add true 0 else s).create force
  | .load id =>
    match s.chks[id]? with
    | none => (s, .threw)
    | some k => ({ s with ads := setMems s.ads k.mems, cur := some id, now := k.tick, loaded := true }, .done)
  | .delete id =>
    match s.chks[id]? with
    | none => (s, .threw)
    | some k => ({ s with chks := s.chks.set id { k with deleted := true } }, .done)
  | .has id => (s, .yes (s.alive id))
  | .list => (s, .ids ((List.range s.chks.length).filter s.alive))
  | .listAt t =>
    (s, .ids ((List.range s.chks.length).filter fun i => match s.chks[i]? with | some k => k.tick == t && !k.deleted | none => false))
  | .counts => (s, .nums (s.chks.countP (!·.deleted)) (s.chks.countP fun k => !k.deleted && k.snap))
  | .chain _ => (s, .done)
  | .forgetCurrent => (s, .done)
  | .setThreshold n => ({ s with thresh := n }, .done)

/-- a checkpoint id that was never deleted -/
def Spec.usable (s : Spec) (id : Nat) : Bool := s.alive id || decide (s.chks.length ≤ id)

def isWipe : ArchData.Op → Bool
  | .clean => true
  | .reset => true
  | _ => false

/-- Histories the properties are about: memories are not wiped or written behind the checkpointer's back once
there is a checkpoint, deleted ids are not used again, and while the current checkpoint is itself deleted others
may be deleted only if there was never a load. -/
def Spec.legal (s : Spec) : Op → Prop
  | .access k o =>
    (match s.ads[k]? with | some m => m.legal o | none => True) ∧ (isWipe o = true → s.chks = [])
  | .poke _ _ _ => False
  | .load id => s.usable id = true
  | .delete id => s.usable id = true ∧ (s.loaded = false ∨ ∀ i, s.cur = some i → s.alive i = true)
  | .has id => s.usable id = true
  | .chain _ => False
  | .forgetCurrent => s.chks = []
  | _ => True

end Sparta.Checkpoint
