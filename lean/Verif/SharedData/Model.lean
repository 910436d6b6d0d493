import Verif.Common
/-!
Model of `sparta::SharedData` (/repo/sparta/sparta/resources/SharedData.hpp) with the part of
`sparta::GlobalEvent` it uses (/repo/sparta/sparta/events/GlobalEvent.hpp).

Objects are numbered. One `tick` is one clock cycle: the update events scheduled for it run before any other
call of the cycle (they are in the Update phase); calls made from the Update phase itself are left out.
Move construction and move assignment are left out.
-/
namespace Sparta.SharedData

/-- what `ev_handler_lifetime_` designates (GlobalEvent.hpp:173): the event of the object, or (after an
assignment, GlobalEvent.hpp:129, 138) the temporary `LifeTracker` of a full expression that has ended -/
inductive Tracker where
  | live
  | dangling
deriving DecidableEq, Repr

/-- one object (SharedData.hpp:247-253). `pending` counts the update events scheduled for the next cycle whose
handler has not expired; `broken` records that undefined behaviour happened in an update. -/
structure Obj (α : Type) where
  current : Nat
  data0 : Option α
  data1 : Option α
  pending : Nat
  tracker : Tracker
  broken : Bool

variable {α : Type}

/-- `PState_` (SharedData.hpp:48-50) -/
def Obj.pstate (o : Obj α) : Nat := o.current
/-- `NState_` (SharedData.hpp:43-45) -/
def Obj.nstate (o : Obj α) : Nat := (o.current + 1) % 2

/-- `data_[i]` (SharedData.hpp:253); an invalid `ValidValue` is `none` -/
def Obj.get (o : Obj α) (i : Nat) : Option α := if i = 0 then o.data0 else o.data1
/-- assignment to `data_[i]` -/
def Obj.put (o : Obj α) (i : Nat) (v : Option α) : Obj α :=
  if i = 0 then { o with data0 := v } else { o with data1 := v }

/-- `writePSImpl_` (SharedData.hpp:228-230) -/
def Obj.writePS (o : Obj α) (v : α) : Obj α := o.put o.pstate (some v)

/-- constructor (SharedData.hpp:65-71) -/
def Obj.new (v : α) : Obj α := Obj.writePS ⟨0, none, none, 0, .live, false⟩ v

/-- `writeImpl_` (SharedData.hpp:233-238): every call schedules one more update event (GlobalEvent.hpp:153-158) -/
def Obj.write (manual : Bool) (o : Obj α) (v : α) : Obj α :=
  let o := o.put o.nstate (some v)
  if manual then o else { o with pending := o.pending + 1 }

/-- `clearNS` (SharedData.hpp:208-210) -/
def Obj.clearNS (o : Obj α) : Obj α := o.put o.nstate none
/-- `clearPS` (SharedData.hpp:213-215) -/
def Obj.clearPS (o : Obj α) : Obj α := o.put o.pstate none
/-- `clear` (SharedData.hpp:202-205) -/
def Obj.clear (o : Obj α) : Obj α := (o.put o.pstate none).put o.nstate none

/-- `update_` (SharedData.hpp:240-244) -/
def Obj.update (o : Obj α) : Obj α := Obj.clearNS { o with current := o.nstate }

/-- run `n` updates one after the other -/
def Obj.updates : Nat → Obj α → Obj α
  | 0, o => o
  | n + 1, o => Obj.updates n o.update

/-- the cycle boundary: all scheduled update events run through the tracker (GlobalEvent.hpp:51-57) -/
def Obj.tick (o : Obj α) : Obj α :=
  if o.pending = 0 then o
  else
    match o.tracker with
    | .live => { Obj.updates o.pending o with pending := 0 }
    | .dangling => { o with pending := 0, broken := true }

/-- copy construction (SharedData.hpp:73-79, GlobalEvent.hpp:109-115): a new tracker, so the update events of
the source do not reach the copy -/
def Obj.copy (o : Obj α) : Obj α := ⟨o.current, o.data0, o.data1, 0, .live, false⟩

/-- copy assignment (SharedData.hpp:89-98, GlobalEvent.hpp:126-133): the assigned tracker points to a temporary -/
def Obj.assign (o : Obj α) : Obj α := ⟨o.current, o.data0, o.data1, 0, .dangling, false⟩

inductive Op (α : Type) where
  | write (i : Nat) (v : α)
  | writePS (i : Nat) (v : α)
  | clear (i : Nat)
  | clearNS (i : Nat)
  | clearPS (i : Nat)
  | isValid (i : Nat)
  | isValidNS (i : Nat)
  | read (i : Nat)
  | readNS (i : Nat)
  | access (i : Nat) (v : α)
  | accessNS (i : Nat) (v : α)
  | update (i : Nat)
  | construct (i : Nat) (v : α)
  | copyNew (i j : Nat)
  | assign (i j : Nat)
  | tick
deriving DecidableEq

inductive Res (α : Type) where
  | done
  | bool (b : Bool)
  | value (v : α)
  | threw
  | ub
deriving DecidableEq, Repr

structure World (α : Type) where
  manual : Bool
  objs : Nat → Obj α

def World.init (manual : Bool) (v : Nat → α) : World α := ⟨manual, fun i => Obj.new (v i)⟩

/-- a read of a slot that must be valid (SharedData.hpp:140-143, 185-188) -/
def resOf : Option α → Res α
  | some v => .value v
  | none => .threw

/-- a change of one object -/
def World.set (w : World α) (i : Nat) (o : Obj α) : World α := { w with objs := upd w.objs i o }

/-- one call; a call on an object in which undefined behaviour happened reports it -/
def step (w : World α) : Op α → World α × Res α
  | .write i v => if (w.objs i).broken then (w, .ub) else (w.set i ((w.objs i).write w.manual v), .done)
  | .writePS i v => if (w.objs i).broken then (w, .ub) else (w.set i ((w.objs i).writePS v), .done)
  | .clear i => if (w.objs i).broken then (w, .ub) else (w.set i (w.objs i).clear, .done)
  | .clearNS i => if (w.objs i).broken then (w, .ub) else (w.set i (w.objs i).clearNS, .done)
  | .clearPS i => if (w.objs i).broken then (w, .ub) else (w.set i (w.objs i).clearPS, .done)
  | .isValid i => if (w.objs i).broken then (w, .ub) else (w, .bool ((w.objs i).get (w.objs i).pstate).isSome)
  | .isValidNS i => if (w.objs i).broken then (w, .ub) else (w, .bool ((w.objs i).get (w.objs i).nstate).isSome)
  | .read i => if (w.objs i).broken then (w, .ub) else (w, resOf ((w.objs i).get (w.objs i).pstate))
  | .readNS i => if (w.objs i).broken then (w, .ub) else (w, resOf ((w.objs i).get (w.objs i).nstate))
  -- store through access() / accessNS() (SharedData.hpp:150-153, 196-199)
  | .access i v =>
    if (w.objs i).broken then (w, .ub)
    else if ((w.objs i).get (w.objs i).pstate).isSome then (w.set i ((w.objs i).put (w.objs i).pstate (some v)), .done)
    else (w, .threw)
  | .accessNS i v =>
    if (w.objs i).broken then (w, .ub)
    else if ((w.objs i).get (w.objs i).nstate).isSome then (w.set i ((w.objs i).put (w.objs i).nstate (some v)), .done)
    else (w, .threw)
  -- update() exists only for manual objects (SharedData.hpp:220-224)
  | .update i =>
    if (w.objs i).broken then (w, .ub)
    else if w.manual then (w.set i (w.objs i).update, .done) else (w, .threw)
  -- destroy object `i` and construct it anew
  | .construct i v => (w.set i (Obj.new v), .done)
  | .copyNew i j => if (w.objs j).broken then (w, .ub) else (w.set i (w.objs j).copy, .done)
  | .assign i j => if (w.objs i).broken ∨ (w.objs j).broken then (w, .ub) else (w.set i (w.objs j).assign, .done)
  | .tick => ({ w with objs := fun i => (w.objs i).tick }, .done)

end Sparta.SharedData
