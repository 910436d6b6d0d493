import Verif.Common
/-!
# States with markers, observers and monitors, and their residency tracking
(sparta/sparta/simulation/State.hpp, StateTracker.hpp, Audience.hpp)

A state holds one value of an enum.  It is changed by setting it, by resetting it, or jointly by its
markers: once enough markers of a value are set, the state takes that value.  Events can be enrolled to
be scheduled when a value is taken, monitors can intervene, and a tracker adds up the ticks spent in
each value.

Modelled: any number of states of one enum type with `n` values (or of `bool`, which has two), their
markers, thresholds, observers and monitors, the trackers with their pool, and the report written when
the pool is flushed.

Simplifications (said again where they apply):
* ticks and thresholds are unbounded natural numbers;
* a monitor does one of three things when it is signalled: nothing, set a value, or reset the state; the
  meta data handed to it is left out;
* `cancel` and `schedule` of an enrolled event are recorded, not executed;
* copies of states, the names in the report and the averages (sums divided by the number) are left out.
-/
namespace Sparta.StateM

/-- Why a call does not succeed. -/
inductive Err
  /-- State.hpp 265: all markers of the value have been made. -/
  | tooMany
  /-- State.hpp 378: a mark is cleared though none is counted. -/
  | noMarks
  /-- State.hpp 509-510: tracking is not enabled. -/
  | noTracker
  /-- a value that is not one of the enum, a state that has gone, a marker that was not made, or a pool
  that was flushed (StateTracker.hpp 523-555 keeps a pointer to it) -/
  | undefined
deriving DecidableEq, Repr

/-- What becomes visible outside of a state. -/
inductive Ev
  /-- an enrolled event is scheduled (Audience.hpp 62-69) -/
  | sched (e : Nat)
  /-- an enrolled event is cancelled (Audience.hpp 29-36) -/
  | cancel (e : Nat)
  /-- a monitor is signalled with a value -/
  | signal (mon v : Nat)
deriving DecidableEq, Repr

/-- What a monitor does when it is signalled. -/
inductive Act
  | note
  | force (v : Nat)
  | reset
deriving DecidableEq, Repr

/-- State.hpp 248-393, `MarkerSet`: the markers of one value (`marks`: which are set), how many are
counted as set, the threshold, the enrolled events, the monitors, and whether the value was taken. -/
structure MSet where
  count : Nat := 0
  thresh : Nat := 0
  marks : List Bool := []
  audience : List Nat := []
  isSet : Bool := false
  monitors : List (Nat × Act) := []

/-- StateTracker.hpp 564-583 and 587-683, a tracker unit: the value that is active, since when, and the
ticks added up for each value. -/
structure Tracker where
  active : Option Nat := none
  start : Nat := 0
  delta : Nat → Nat := fun _ => 0

/-- State.hpp 742-755, one state. -/
structure Obj where
  alive : Bool := true
  initial : Nat := 0
  value : Nat := 0
  sets : Nat → MSet := fun _ => {}
  tracker : Option Tracker := none

/-- The states of one enum type with `n` values, the pool of trackers (the front of the queue first), the
number of trackers handed out, and what was reported. -/
structure Sys where
  now : Nat := 0
  n : Nat := 0
  isBool : Bool := false
  maxMarkers : Nat := 15
  tracking : Bool := false
  pool : List Tracker := []
  made : Nat := 0
  flushed : Bool := false
  objs : Nat → Obj := fun _ => {}
  count : Nat := 0
  log : List (Nat × Ev) := []
  report : Option (List Nat × Nat) := none

/-! ## Trackers -/

/-- StateTracker.hpp 670-677, `endTimerState_`. -/
def Tracker.endTimer (t : Tracker) (now : Nat) : Tracker :=
  match t.active with
  | none => t
  | some a => { t with delta := upd t.delta a (t.delta a + (now - t.start)) }

/-- StateTracker.hpp 607-625, `startState`: nothing when the value is active already.  The assertion at
621-622 holds for the values of the enum. -/
def Tracker.startState (t : Tracker) (now v : Nat) : Tracker :=
  if t.active = some v then t else { t.endTimer now with active := some v, start := now }

/-- StateTracker.hpp 645-656, `updateLastDeltas`. -/
def Tracker.last (t : Tracker) (now : Nat) : Tracker :=
  match t.active with
  | none => t
  | some _ => { t.endTimer now with active := none, start := 0 }

/-- StateTracker.hpp 211-231 and 473-481, handing out a tracker: none when tracking is off, one from the
front of the queue, or a new one. -/
def dispatch (s : Sys) : Sys × Option Tracker :=
  if s.tracking then
    match s.pool with
    | [] => ({ s with made := s.made + 1 }, some {})
    | t :: rest => ({ s with made := s.made + 1, pool := rest }, some t)
  else (s, none)

/-! ## One state -/

/-- State.hpp 341-344 and Audience.hpp 62-69, `notifyObservers`: every enrolled event is scheduled once
and is no longer enrolled. -/
def Obj.notify (o : Obj) (v : Nat) : Obj × List Ev :=
  ({ o with sets := upd o.sets v { o.sets v with audience := [], isSet := true } },
   (o.sets v).audience.map .sched)

/-- State.hpp 518-532, `setValue`. -/
def Obj.setValue (o : Obj) (now v : Nat) : Obj × List Ev :=
  Obj.notify { o with tracker := o.tracker.map (·.startState now v), value := v } v

/-- State.hpp 296-302, the reset of a marker set. -/
def MSet.reset (ms : MSet) : MSet :=
  { ms with marks := ms.marks.map fun _ => false, count := 0, isSet := false }

/-- State.hpp 540-546 and 405-421, `reset()`: a state of `bool` is then set to false. -/
def Obj.reset (o : Obj) (isBool : Bool) (now : Nat) : Obj × List Ev :=
  let o' := { o with value := o.initial, sets := fun v => (o.sets v).reset }
  if isBool then o'.setValue now 0 else (o', [])

/-- State.hpp 555-560, `reset(val)`. -/
def Obj.resetTo (o : Obj) (v : Nat) : Obj :=
  { o with value := v, sets := fun w => (o.sets w).reset }

/-- What a signalled monitor does to the state. -/
def Obj.act (o : Obj) (isBool : Bool) (n now : Nat) : Act → Obj × List Ev
  | .note => (o, [])
  | .force v => if v < n then o.setValue now v else (o, [])
  | .reset => o.reset isBool now

/-- State.hpp 363-366: every monitor is signalled in turn. -/
def Obj.signalAll (o : Obj) (isBool : Bool) (n now v : Nat) : List (Nat × Act) → Obj × List Ev
  | [] => (o, [])
  | (m, a) :: ms =>
    let r := o.act isBool n now a
    let r' := Obj.signalAll r.1 isBool n now v ms
    (r'.1, .signal m v :: r.2 ++ r'.2)

/-- State.hpp 361-374, `jointSet_`: one more mark; monitors are signalled, or else, when no more marks are
missing than the threshold, the value is taken and the observers notified.  The tracker is not told. -/
def Obj.jointSet (o : Obj) (isBool : Bool) (n now v : Nat) : Obj × List Ev :=
  let ms := { o.sets v with count := (o.sets v).count + 1 }
  let o' := { o with sets := upd o.sets v ms }
  if ms.monitors ≠ [] then o'.signalAll isBool n now v ms.monitors
  else if ms.marks.length - ms.count ≤ ms.thresh then Obj.notify { o' with value := v } v
  else (o', [])

/-- Write one marker of a value. -/
def Obj.mark (o : Obj) (v m : Nat) (x : Bool) : Obj :=
  { o with sets := upd o.sets v { o.sets v with marks := (o.sets v).marks.set m x } }

/-- State.hpp 174-179, `Marker::set`: nothing when it is set already; the marker is written after the
rest. -/
def Obj.setMarker (o : Obj) (isBool : Bool) (n now v m : Nat) : Obj × List Ev :=
  if (o.sets v).marks[m]? = some false then
    let r := o.jointSet isBool n now v
    (r.1.mark v m true, r.2)
  else (o, [])

/-- State.hpp 182-188 and 377-380, `Marker::clear`. -/
def Obj.clearMarker (o : Obj) (v m : Nat) : Obj × Option Err :=
  if (o.sets v).marks[m]? = some true then
    if (o.sets v).count = 0 then (o, some .noMarks)
    else (Obj.mark { o with sets := upd o.sets v { o.sets v with count := (o.sets v).count - 1 } } v m false,
      none)
  else (o, none)

/-- Replace one state. -/
def Sys.put (s : Sys) (x : Nat) (o : Obj) : Sys := { s with objs := upd s.objs x o }

/-- Replace one state, with what became visible. -/
def Sys.out (s : Sys) (x : Nat) (r : Obj × List Ev) : Sys :=
  { s with objs := upd s.objs x r.1, log := s.log ++ r.2.map fun e => (x, e) }

/-- State.hpp 438-478, the constructor: a tracker, told the initial value; a state of `bool` is then set to
false. -/
def create (s : Sys) (initial : Nat) : Sys :=
  let r := dispatch s
  let o : Obj := { initial := initial, value := initial,
                   tracker := r.2.map (·.startState s.now initial) }
  let p := if s.isBool then o.setValue s.now 0 else (o, [])
  { r.1.out s.count p with count := s.count + 1 }

/-- StateTracker.hpp 108-118 and 237-254, a state goes: its tracker is closed and put at the back of the
queue, or deleted once the pool was flushed. -/
def kill (s : Sys) (x : Nat) : Sys :=
  let o := s.objs x
  let s' := s.put x { o with alive := false, tracker := none }
  match o.tracker with
  | none => s'
  | some t => if s.flushed then s' else { s' with pool := s.pool ++ [t.last s.now] }

/-- StateTracker.hpp 259-339 and 464-466, flushing the pool: the ticks of the trackers in the queue are
added up and reported with the number of trackers handed out; the queue goes.  Nothing when no tracker
was ever handed out. -/
def flush (s : Sys) : Sys :=
  if s.made = 0 ∨ s.flushed then s
  else { s with report := some ((List.range s.n).map fun v => (s.pool.map fun t => t.delta v).sum, s.made)
                pool := [], flushed := true }

/-- What the user does; states are numbered in the order they are made, markers of a value too. -/
inductive Op
  | tick (n : Nat)
  /-- `StatePoolManager::enableTracking()` -/
  | enable
  | create (initial : Nat)
  | kill (x : Nat)
  | setValue (x v : Nat)
  | reset (x : Nat)
  | resetTo (x v : Nat)
  | newMarker (x v : Nat)
  | set (x v m : Nat)
  | clear (x v m : Nat)
  | threshold (x v t : Nat)
  | observe (x v e : Nat)
  | withdraw (x v e : Nat)
  | release (x v : Nat)
  | attach (x v mon : Nat) (a : Act)
  | detach (x v mon : Nat)
  | flush
deriving DecidableEq, Repr

/-- Change the marker set of one value. -/
def Sys.edit (s : Sys) (x v : Nat) (f : MSet → MSet) : Sys :=
  s.put x { s.objs x with sets := upd (s.objs x).sets v (f ((s.objs x).sets v)) }

/-- A call is made on a state that exists and a value of the enum. -/
def Sys.has (s : Sys) (x v : Nat) : Bool := decide (x < s.count) && (s.objs x).alive && decide (v < s.n)

/-- The calls that concern a value of a state.  State.hpp 263-268 `makeMarker`, 320-322 `setThreshold`,
305-317 `observe`, `withdraw` and `release` with Audience.hpp 29-60, 325-336 the monitors. -/
def onValue (s : Sys) (x v : Nat) : Op → Sys × Option Err
  | .setValue _ _ => (s.out x ((s.objs x).setValue s.now v), none)
  | .resetTo _ _ => (s.put x ((s.objs x).resetTo v), none)
  | .newMarker _ _ =>
    if ((s.objs x).sets v).marks.length = s.maxMarkers then (s, some .tooMany)
    else (s.edit x v fun ms => { ms with marks := ms.marks ++ [false] }, none)
  | .set _ _ m =>
    if m < ((s.objs x).sets v).marks.length then
      (s.out x ((s.objs x).setMarker s.isBool s.n s.now v m), none)
    else (s, some .undefined)
  | .clear _ _ m =>
    if m < ((s.objs x).sets v).marks.length then
      (s.put x ((s.objs x).clearMarker v m).1, ((s.objs x).clearMarker v m).2)
    else (s, some .undefined)
  | .threshold _ _ t => (s.edit x v fun ms => { ms with thresh := t }, none)
  | .observe _ _ e => (s.edit x v fun ms => { ms with audience := ms.audience ++ [e] }, none)
  | .withdraw _ _ e => (s.edit x v fun ms => { ms with audience := ms.audience.erase e }, none)
  | .release _ _ =>
    ({ s.edit x v (fun ms => { ms with audience := [] }) with
        log := s.log ++ ((s.objs x).sets v).audience.map fun e => (x, .cancel e) }, none)
  | .attach _ _ mon a => (s.edit x v fun ms => { ms with monitors := ms.monitors ++ [(mon, a)] }, none)
  | .detach _ _ mon =>
    (s.edit x v fun ms => { ms with monitors := ms.monitors.eraseP fun p => p.1 == mon }, none)
  | _ => (s, none)

/-- The state and the value a call concerns. -/
def Op.on : Op → Option (Nat × Nat)
  | .setValue x v | .resetTo x v | .newMarker x v | .set x v _ | .clear x v _ | .threshold x v _
  | .observe x v _ | .withdraw x v _ | .release x v | .attach x v _ _ | .detach x v _ => some (x, v)
  | _ => none

/-- One call. -/
def step (s : Sys) (op : Op) : Sys × Option Err :=
  match op.on with
  | some (x, v) => if s.has x v then onValue s x v op else (s, some .undefined)
  | none =>
    match op with
    | .tick n => ({ s with now := s.now + n }, none)
    | .enable => ({ s with tracking := true }, none)
    | .create initial =>
      if initial < s.n ∧ ¬ (s.tracking = true ∧ s.flushed = true) then (create s initial, none)
      else (s, some .undefined)
    | .kill x => if x < s.count ∧ (s.objs x).alive = true then (kill s x, none) else (s, some .undefined)
    | .reset x =>
      if x < s.count ∧ (s.objs x).alive = true then
        (s.out x ((s.objs x).reset s.isBool s.now), none)
      else (s, some .undefined)
    | .flush => (flush s, none)
    | _ => (s, none)

/-- A run of calls. -/
def run (s : Sys) (ops : List Op) : Sys × List (Option Err) := runOps step s ops

/-- Before any state is made.  State.hpp 34-39: a `bool` has the two values false and true. -/
def init (n : Nat) (isBool : Bool) (maxMarkers : Nat) : Sys :=
  { n := if isBool then 2 else n, isBool := isBool, maxMarkers := maxMarkers }

/-! ## What can be asked -/

/-- State.hpp 497-499, `getValue`. -/
def Sys.value (s : Sys) (x : Nat) : Nat := (s.objs x).value

/-- State.hpp 654-669, `isSet`; `isClear` is its opposite. -/
def Sys.isSet (s : Sys) (x v : Nat) : Bool := ((s.objs x).sets v).isSet

/-- State.hpp 609-611, `numMarks`. -/
def Sys.numMarks (s : Sys) (x v : Nat) : Nat := ((s.objs x).sets v).count

/-- State.hpp 618-620, `numMarkers`. -/
def Sys.numMarkers (s : Sys) (x v : Nat) : Nat := ((s.objs x).sets v).marks.length

/-- State.hpp 191-193, `Marker::isMarked`. -/
def Sys.marked (s : Sys) (x v m : Nat) : Bool := ((s.objs x).sets v).marks.getD m false

/-- State.hpp 627-629, `complete`. -/
def Sys.complete (s : Sys) (x v : Nat) : Bool := s.numMarks x v == s.numMarkers x v

/-- State.hpp 508-512 and StateTracker.hpp 660-663, `getTimeInState`. -/
def Sys.timeInState (s : Sys) (x : Nat) : Except Err Nat :=
  match (s.objs x).tracker with
  | none => .error .noTracker
  | some t => .ok (s.now - t.start)

/-- State.hpp 737-740, `getRawAccumulatedTime`. -/
def Sys.rawTime (s : Sys) (x v : Nat) : Except Err Nat :=
  match (s.objs x).tracker with
  | none => .error .noTracker
  | some t => .ok (t.delta v)

/-- The events enrolled on a value. -/
def Sys.enrolled (s : Sys) (x v : Nat) : List Nat := ((s.objs x).sets v).audience

end Sparta.StateM
