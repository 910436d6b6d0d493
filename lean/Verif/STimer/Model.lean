import Verif.Common
/-!
# State timers (sparta/sparta/simulation/StateTimerUnit.hpp)

A state timer unit owns a pool of state timers.  The user takes a timer from the pool, tells it which
state of which enum class is entered and left, and drops it; the unit puts the cycles spent in each
state into one histogram per state, when the timer is dropped, when the unit is queried and when the
unit is destroyed.

Modelled: the constructor of the unit with its enum classes, the pool (taking, growing, giving back,
querying and emptying), the timer's `startState`, `endState`, query and release, the update of the
histograms as the list of the `addValue` calls, and the deleter of the handles.

Simplifications (said again where they apply):
* cycle numbers, deltas and times are unbounded natural numbers instead of `uint64_t`;
* what a histogram does with a value (bins, statistics, the strings shown) is not part of this model;
* a handle stands for all the `shared_ptr` copies made of one allocated handle: `drop` is the moment
  the last copy goes;
* the order in which the unordered map of active timers is visited is the order of a list; the tree
  node of the unit, and what is printed, are left out.
-/
namespace Sparta.STimer

/-- Why a call does not succeed: the assertions of StateTimerUnit.hpp, or undefined behaviour. -/
inductive Err
  /-- "Can not find state enum class in timer." (lines 75-76 and 117-118) -/
  | unknown
  /-- "State aleady started" (lines 82-83) -/
  | already
  /-- "Wrong active state starting time." (lines 84-85) -/
  | startTime
  /-- "State enum out of range." (lines 92-93) -/
  | range
  /-- "No active state in the set when endState." (lines 122-123) -/
  | noActive
  /-- "State does not match active state in the set when endState." (lines 125-126) -/
  | mismatch
  /-- "No timer available, pool exceeds MAX capacity." (lines 361-362) -/
  | full
  /-- "Number of Timers does not add up." (lines 379-380 and 396-397) -/
  | sum
  /-- "Timer not in active timer map when release. " (lines 392-393) -/
  | notActive
  /-- "Wrong timing: current cycle less than state start time" (lines 623-624 and 655-656) -/
  | timing
  /-- "Same enum class exists." (lines 550-551) -/
  | sameClass
  /-- `back()` of an empty vector (line 375), or a timer used through a handle that was dropped or
  whose unit has gone. -/
  | undefined
deriving DecidableEq, Repr

/-- StateTimerUnit.hpp 152-168, the part of a timer for one enum class: the active state, when it
began, and the cycles of each state not yet put into the histograms. -/
structure SSet where
  active : Option Nat := none
  start : Nat := 0
  delta : Nat → Nat := fun _ => 0

/-- StateTimerUnit.hpp 181-195 and 250-259: a timer, with one part for each enum class (keyed by the
truncated hash code of the class) and the cycle of the last query. -/
structure Timer where
  sets : Nat → SSet := fun _ => {}
  last : Nat := 0

/-- StateTimerUnit.hpp 410-431 and 590-599, the unit with its pool.  `classes` are the enum classes
(truncated hash code, number of states); `timers` and `total` are the list of all timers; `active` are
the timers in use; `avail` are the others, the back of the vector first; `handles` are the handles given
out, `none` once dropped; `hist` are the values put into the histograms (class, state, value) in the
order of the calls. -/
structure Sys where
  now : Nat := 0
  init : Nat := 0
  classes : List (Nat × Nat) := []
  timers : Nat → Timer := fun _ => {}
  total : Nat := 0
  active : List Nat := []
  avail : List Nat := []
  handles : List (Option Nat) := []
  hist : List (Nat × Nat × Nat) := []
  alive : Bool := true

/-- StateTimerUnit.hpp 70, 112 and 548: the hash code of an enum class is cut to 32 bits. -/
def key (code : Nat) : Nat := code % 4294967296

/-- StateTimerUnit.hpp 546-562: take the enum classes one by one, refusing one that is there. -/
def addSets : List (Nat × Nat) → List (Nat × Nat) → Except Err (List (Nat × Nat))
  | acc, [] => .ok acc
  | acc, (code, n) :: rest =>
    if (acc.lookup (key code)).isSome then .error .sameClass
    else addSets (acc ++ [(key code, n)]) rest

/-- StateTimerUnit.hpp 708-729 and 744-774, the constructor: the enum classes, then `init` timers, all
available.  The clock may stand at any cycle. -/
def make (now init : Nat) (classes : List (Nat × Nat)) : Except Err Sys :=
  match addSets [] classes with
  | .error e => .error e
  | .ok cs => .ok { now := now, init := init, classes := cs, total := init,
                    avail := (List.range init).reverse }

/-- StateTimerUnit.hpp 201-214, `endTimerState_`: add to the active state the cycles since it began, or
since the last query when that is not before. -/
def endTimer (now last : Nat) (ss : SSet) : SSet :=
  match ss.active with
  | none => ss
  | some a =>
    { ss with delta := upd ss.delta a (ss.delta a + (now - (if ss.start > last then ss.start else last))) }

/-- StateTimerUnit.hpp 73-95, the body of `startState` on the part for the enum class.  The range is
looked at only after the active state has been given its time, so a state out of range leaves that
change behind. -/
def startSet (now last n i : Nat) (ss : SSet) : SSet × Option Err :=
  match ss.active with
  | some a =>
    if a = i then (ss, some .already)
    else if ss.start = 0 then (ss, some .startTime)
    else if i < n then ({ endTimer now last ss with active := some i, start := now }, none)
    else (endTimer now last ss, some .range)
  | none =>
    if i < n then ({ ss with active := some i, start := now }, none) else (ss, some .range)

/-- StateTimerUnit.hpp 115-132, the body of `endState`. -/
def endSet (now last i : Nat) (ss : SSet) : SSet × Option Err :=
  match ss.active with
  | none => (ss, some .noActive)
  | some a =>
    if a = i then ({ endTimer now last ss with active := none, start := 0 }, none)
    else (ss, some .mismatch)

/-- Replace the part of a timer for one enum class. -/
def Timer.put (t : Timer) (k : Nat) (ss : SSet) : Timer := { t with sets := upd t.sets k ss }

/-- StateTimerUnit.hpp 60-96 and 140-144, `startState` and `operator=` on the timer `id`. -/
def startState (s : Sys) (id code i : Nat) : Sys × Option Err :=
  match s.classes.lookup (key code) with
  | none => (s, some .unknown)
  | some n =>
    let r := startSet s.now (s.timers id).last n i ((s.timers id).sets (key code))
    ({ s with timers := upd s.timers id ((s.timers id).put (key code) r.1) }, r.2)

/-- StateTimerUnit.hpp 102-133, `endState` on the timer `id`. -/
def endState (s : Sys) (id code i : Nat) : Sys × Option Err :=
  match s.classes.lookup (key code) with
  | none => (s, some .unknown)
  | some _ =>
    let r := endSet s.now (s.timers id).last i ((s.timers id).sets (key code))
    ({ s with timers := upd s.timers id ((s.timers id).put (key code) r.1) }, r.2)

/-- StateTimerUnit.hpp 623-624 and 655-656: no active state began after the current cycle. -/
def timely (s : Sys) (t : Timer) : Bool :=
  s.classes.all fun c => decide ((t.sets c.1).active = none ∨ (t.sets c.1).start ≤ s.now)

/-- StateTimerUnit.hpp 488-500, `updateHistogram`: the values put into the histograms, one for each
state of each enum class. -/
def samples (classes : List (Nat × Nat)) (t : Timer) : List (Nat × Nat × Nat) :=
  classes.flatMap fun c => (List.range c.2).map fun i => (c.1, i, (t.sets c.1).delta i)

/-- StateTimerUnit.hpp 497: the deltas put into the histograms are set to zero. -/
def zeroed (classes : List (Nat × Nat)) (t : Timer) : Timer :=
  { t with sets := fun k =>
      { t.sets k with delta := fun i =>
          match classes.lookup k with
          | some n => if i < n then 0 else (t.sets k).delta i
          | none => (t.sets k).delta i } }

/-- StateTimerUnit.hpp 617-631: give the active state of every enum class its time. -/
def endAll (now : Nat) (t : Timer) : Timer :=
  { t with sets := fun k => endTimer now t.last (t.sets k) }

/-- StateTimerUnit.hpp 649-666: the same at a release, leaving no state active. -/
def closeAll (now : Nat) (t : Timer) : Timer :=
  { t with sets := fun k =>
      if (t.sets k).active.isSome then { endTimer now t.last (t.sets k) with active := none, start := 0 }
      else t.sets k }

/-- StateTimerUnit.hpp 607-636, `queryStateTimer_`: nothing when already queried in this cycle. -/
def queryTimer (s : Sys) (id : Nat) : Sys × Option Err :=
  if (s.timers id).last = s.now then (s, none)
  else if timely s (s.timers id) = false then (s, some .timing)
  else
    let t := endAll s.now (s.timers id)
    ({ s with hist := s.hist ++ samples s.classes t
              timers := upd s.timers id { zeroed s.classes t with last := s.now } }, none)

/-- StateTimerUnit.hpp 388-398, `releaseTimer`: back into the pool. -/
def releaseToPool (s : Sys) (id : Nat) : Sys × Option Err :=
  if id ∈ s.active then
    let s' := { s with avail := id :: s.avail, active := s.active.erase id }
    if s'.active.length + s'.avail.length = s'.total then (s', none) else (s', some .sum)
  else (s, some .notActive)

/-- StateTimerUnit.hpp 642-670, `releaseStateTimer_`: the times into the histograms, then back into the
pool.  The cycle of the last query is kept. -/
def releaseTimer (s : Sys) (id : Nat) : Sys × Option Err :=
  if timely s (s.timers id) = false then (s, some .timing)
  else
    let t := closeAll s.now (s.timers id)
    releaseToPool { s with hist := s.hist ++ samples s.classes t
                           timers := upd s.timers id (zeroed s.classes t) } id

/-- StateTimerUnit.hpp 675-682, `queryAllActiveTimer`: stops at the first one that throws. -/
def queryAll (s : Sys) : List Nat → Sys × Option Err
  | [] => (s, none)
  | id :: ids =>
    match queryTimer s id with
    | (s', none) => queryAll s' ids
    | (s', some e) => (s', some e)

/-- StateTimerUnit.hpp 687-695, `releaseAllActiveTimer`. -/
def releaseAll (s : Sys) : List Nat → Sys × Option Err
  | [] => (s, none)
  | id :: ids =>
    match releaseTimer s id with
    | (s', none) => releaseAll s' ids
    | (s', some e) => (s', some e)

/-- StateTimerUnit.hpp 431: `MAX_NUM_STATETIMER`. -/
def maxTimers : Nat := 10000

/-- StateTimerUnit.hpp 357-373: when no timer is available, as many new ones as there were in the
beginning. -/
def grow (s : Sys) : Sys × Option Err :=
  if s.avail = [] then
    if s.total < maxTimers then
      ({ s with timers := fun id => if s.total ≤ id ∧ id < s.total + s.init then {} else s.timers id
                total := s.total + s.init
                avail := ((List.range s.init).map (s.total + ·)).reverse }, none)
    else (s, some .full)
  else (s, none)

/-- StateTimerUnit.hpp 375-381: the timer at the back of the vector of available ones, behind a new
handle. -/
def take (s : Sys) : Sys × Option Err :=
  match s.avail with
  | [] => (s, some .undefined)
  | id :: rest =>
    let s' := { s with avail := rest, active := id :: s.active }
    if s'.active.length + s'.avail.length = s'.total then
      ({ s' with handles := s'.handles ++ [some id] }, none)
    else (s', some .sum)

/-- StateTimerUnit.hpp 294-297 and 353-382, `allocateStateTimer`. -/
def allocate (s : Sys) : Sys × Option Err :=
  match grow s with
  | (s', none) => take s'
  | (s', some e) => (s', some e)

/-- What the user does.  A timer is named by the number of its handle (in the order of allocation), an
enum class by its hash code. -/
inductive Op
  /-- The clock goes on by so many cycles. -/
  | tick (n : Nat)
  /-- `allocateStateTimer()` -/
  | allocate
  /-- `startState(e)` or assignment through a handle -/
  | start (h code i : Nat)
  /-- `endState(e)` through a handle -/
  | stop (h code i : Nat)
  /-- The last copy of a handle goes. -/
  | drop (h : Nat)
  /-- `dynamicQuery()` -/
  | query
  /-- The unit is destroyed. -/
  | destroy
deriving DecidableEq, Repr

/-- One call.  StateTimerUnit.hpp 239-245: the deleter of a handle does nothing once the pool has gone.
StateTimerUnit.hpp 285-288: destroying the unit releases every active timer. -/
def step (s : Sys) : Op → Sys × Option Err
  | .tick n => ({ s with now := s.now + n }, none)
  | .allocate => if s.alive then allocate s else (s, some .undefined)
  | .start h code i =>
    match s.alive, s.handles[h]? with
    | true, some (some id) => startState s id code i
    | _, _ => (s, some .undefined)
  | .stop h code i =>
    match s.alive, s.handles[h]? with
    | true, some (some id) => endState s id code i
    | _, _ => (s, some .undefined)
  | .drop h =>
    match s.handles[h]? with
    | some (some id) =>
      if s.alive then releaseTimer { s with handles := s.handles.set h none } id
      else ({ s with handles := s.handles.set h none }, none)
    | _ => (s, some .undefined)
  | .query => if s.alive then queryAll s s.active else (s, some .undefined)
  | .destroy =>
    if s.alive then
      match releaseAll s s.active with
      | (s', none) => ({ s' with alive := false }, none)
      | (s', some e) => (s', some e)
    else (s, some .undefined)

/-- A run of calls with what each gave back. -/
def run (s : Sys) (ops : List Op) : Sys × List (Option Err) := runOps step s ops

end Sparta.STimer
