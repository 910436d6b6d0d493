import Verif.Common
/-!
Model of `sparta::Scheduler` (/repo/sparta/sparta/kernel/Scheduler.hpp, /repo/sparta/src/Scheduler.cpp)
after `finalize()`.  The `run` loop is a small step machine; event handlers are arbitrary code that calls
back into the scheduler, modelled as an arbitrary function from the whole state to a list of calls.

Simplifications: ticks are unbounded naturals (`uint64_t` wrap-around not modelled); the watchdog, the run
timers, clocks, the call trace, the SystemC notification, debug output and `eventCancelled_` callbacks are
left out; startup events are calls made by the user before the first `run`; calling `run`, `restartAt` or
`clearEvents` from inside a handler is outside the documented interface and not modelled.
-/
namespace Sparta.Scheduler

/-- what can sit in the queue: a user `Scheduleable` or the scheduler's own `stop_event_`
(Scheduler.cpp:47) -/
inductive Ev where
  | user (n : Nat)
  | stop
deriving DecidableEq, Repr

/-- One accepted request to fire `ev` at tick `due` in firing group `grp`.  `rid` numbers the accepted
requests in the order in which they were accepted (ghost). -/
structure Req where
  rid : Nat
  ev : Ev
  due : Nat
  grp : Nat
  cont : Bool
deriving DecidableEq, Repr

/-- What a user sees happen (ghost trace): a request accepted at tick `now` with delay `rel`, a handler
invoked at tick `now`, the cancel calls and `clearEvents`. -/
inductive Obs where
  | accept (r : Req) (now rel : Nat)
  | fire (r : Req) (now : Nat)
  | cancel (e : Nat)
  | cancelAt (e : Nat) (due : Nat)
  | clear
deriving DecidableEq, Repr

/-- slot of a `ScheduleableGroup` (Scheduler.hpp 209-244); `ev = none` is the no-op `cancelled_event_`;
`rid` and `cont` are ghost -/
structure Entry where
  rid : Nat
  ev : Option Ev
  cont : Bool
deriving DecidableEq, Repr

/-- Scheduler.hpp 207-288 `TickQuantum`; the growable array of each group is a list -/
structure Quantum where
  tick : Nat
  groups : Nat → List Entry
  first : Nat

/-- position inside `run`: outside of it, at the top of `while(running_)`, inside the group loops, or left by
an exception -/
inductive Pc where
  | idle
  | loop
  | firing
  | aborted
deriving DecidableEq, Repr

/-- `getGroupID()` of each user event and the number of groups of the DAG -/
structure Cfg where
  gid : Nat → Nat
  dagGroups : Nat

/-- Scheduler.cpp:216-223: `group_zero_` -/
def Cfg.groupZero (c : Cfg) : Nat := c.dagGroups + 2
/-- Scheduler.cpp:217,223: `firing_group_count_` -/
def Cfg.nGroups (c : Cfg) : Nat := c.dagGroups + 3
/-- Scheduler.cpp:376-377 (and 683-684, 713-714, 734-739, 764-769): firing group of an event -/
def Cfg.fg (c : Cfg) (e : Nat) : Nat := if c.gid e ≠ 0 then c.gid e + 1 else c.groupZero
/-- firing group of any queue entry; the stop event is scheduled with `dag_group` 0 (Scheduler.cpp:520) -/
def Cfg.fgEv (c : Cfg) : Ev → Nat
  | .user e => c.fg e
  | .stop => c.groupZero

/-- a request waiting in `async_event_list_` -/
structure Async where
  e : Nat
  rel : Nat
  cont : Bool
deriving DecidableEq, Repr

/-- Scheduler.hpp members: `current_tick_`, `elapsed_ticks_`, `first_tick_`, the list starting at
`current_tick_quantum_`, the free list of `tick_quantum_allocator_` (only the recycled `first_group_idx`
survives in a recycled quantum), `current_group_firing_`, `current_event_firing_`, `running_`,
`is_finished_`, `latest_continuing_event_`, `async_event_list_`; then the program counter and the ghost
request counter and trace (observations since `finalize` or the last `restartAt`). -/
structure St where
  tick : Nat
  elapsed : Nat
  firstTick : Bool
  queue : List Quantum
  free : List Nat
  grp : Nat
  idx : Nat
  running : Bool
  finished : Bool
  latest : Nat
  async : List Async
  pc : Pc
  rid : Nat
  trace : List Obs

/-- state after `finalize()` (Scheduler.cpp 194-234) -/
def St.init : St where
  tick := 0
  elapsed := 0
  firstTick := true
  queue := []
  free := []
  grp := 0
  idx := 0
  running := false
  finished := true
  latest := 0
  async := []
  pc := .idle
  rid := 0
  trace := []

/-- `numeric_limits<uint32_t>::max()`, the initial `first_group_idx` (Scheduler.hpp:286) -/
def noGroup : Nat := 4294967295

/-- ObjectAllocator.hpp 35-48 `create`: a recycled quantum keeps its old `first_group_idx` -/
def allocFirst : List Nat → Nat
  | [] => noGroup
  | f :: _ => f

/-- Scheduler.hpp 263-268 `addEvent` -/
def Quantum.addEvent (q : Quantum) (g : Nat) (x : Entry) : Quantum :=
  { q with groups := upd q.groups g (q.groups g ++ [x]), first := min q.first g }

/-- Scheduler.cpp 294-350 `determineTickQuantum_`, the walk: is there already a quantum for tick `t`? -/
def hasQuantum (t : Nat) : List Quantum → Bool
  | [] => false
  | q :: qs => if q.tick = t then true else if t < q.tick then false else hasQuantum t qs

/-- Scheduler.cpp 294-350 `determineTickQuantum_` followed by an update `f` of the quantum found or inserted
(`first` is the `first_group_idx` of the newly allocated quantum, all its groups are empty) -/
def withQuantum (t first : Nat) (f : Quantum → Quantum) : List Quantum → List Quantum
  | [] => [f ⟨t, fun _ => [], first⟩]
  | q :: qs =>
    if q.tick = t then f q :: qs
    else if t < q.tick then f ⟨t, fun _ => [], first⟩ :: q :: qs
    else q :: withQuantum t first f qs

/-- the group `g` of the quantum for tick `t` (what the loops of Scheduler.hpp 275-279 and Scheduler.cpp
681-708 look at) -/
def groupAt (t g : Nat) : List Quantum → List Entry
  | [] => []
  | q :: qs => if q.tick = t then q.groups g else if t < q.tick then [] else groupAt t g qs

/-- Scheduler.cpp 401-402 and Scheduler.hpp 270-282: add the event unless `uniq` is set and the event is
found in its group at that tick -/
def St.enqueue (s : St) (ev : Ev) (g rel : Nat) (cont uniq : Bool) : St :=
  let t := s.tick + rel
  let free' := if hasQuantum t s.queue then s.free else s.free.tail
  if uniq && (groupAt t g s.queue).any (fun x => x.ev == some ev) then s
  else { s with queue := withQuantum t (allocFirst s.free) (·.addEvent g ⟨s.rid, some ev, cont⟩) s.queue,
                free := free', rid := s.rid + 1,
                trace := s.trace ++ [.accept ⟨s.rid, ev, t, g, cont⟩ s.tick rel] }

/-- Scheduler.cpp 408-414: bookkeeping of the latest continuing event -/
def St.noteCont (s : St) (t : Nat) (cont : Bool) : St :=
  if cont then { s with finished := false, latest := max s.latest t } else s

/-- Scheduler.cpp 353-422 `scheduleEvent`; `none` = exception (precedence issue, or group out of range) -/
def St.scheduleEv (cfg : Cfg) (s : St) (ev : Ev) (rel : Nat) (cont uniq : Bool) : Option St :=
  let g := cfg.fgEv ev
  if rel = 0 ∧ g < s.grp then none
  else if ¬ g < cfg.nGroups then none
  else some ((s.enqueue ev g rel cont uniq).noteCont (s.tick + rel) cont)

/-- replace every occurrence of `e` in a group by the no-op event (Scheduler.cpp 745-749, 778-783) -/
def cancelIn (e : Nat) (l : List Entry) : List Entry :=
  l.map (fun x => if x.ev = some (.user e) then { x with ev := none } else x)

/-- Scheduler.cpp 732-760 `cancelEvent(e)` -/
def St.cancel (cfg : Cfg) (s : St) (e : Nat) : St :=
  { s with
    queue := s.queue.map (fun q =>
      { q with groups := upd q.groups (cfg.fg e) (cancelIn e (q.groups (cfg.fg e))) }),
    trace := s.trace ++ [.cancel e] }

/-- Scheduler.cpp 773-796: the first quantum with that tick -/
def cancelQuantum (e g t : Nat) : List Quantum → List Quantum
  | [] => []
  | q :: qs =>
    if q.tick = t then { q with groups := upd q.groups g (cancelIn e (q.groups g)) } :: qs
    else q :: cancelQuantum e g t qs

/-- Scheduler.cpp 762-797 `cancelEvent(e, rel_time)` -/
def St.cancelAt (cfg : Cfg) (s : St) (e rel : Nat) : St :=
  { s with queue := cancelQuantum e (cfg.fg e) (s.tick + rel) s.queue,
           trace := s.trace ++ [.cancelAt e (s.tick + rel)] }

/-- Scheduler.cpp 799-809 `cancelAsyncEvent` -/
def St.cancelAsync (cfg : Cfg) (s : St) (e : Nat) : St :=
  St.cancel cfg { s with async := s.async.filter (fun a => a.e ≠ e) } e

/-- Scheduler.cpp 710-730 `isScheduled(e)` -/
def St.isScheduled (cfg : Cfg) (s : St) (e : Nat) : Bool :=
  s.queue.any (fun q => (q.groups (cfg.fg e)).any (fun x => x.ev == some (.user e)))

/-- Scheduler.cpp 681-708 `isScheduled(e, rel_time)` -/
def St.isScheduledAt (cfg : Cfg) (s : St) (e rel : Nat) : Bool :=
  (groupAt (s.tick + rel) (cfg.fg e) s.queue).any (fun x => x.ev == some (.user e))

/-- Scheduler.hpp 676-682 `nextEventTick` (outside of a run); `none` = INDEFINITE -/
def St.nextEventTick (s : St) : Option Nat := s.queue.head?.map (·.tick)

/-- calls available to handlers and to the user -/
inductive Call where
  | schedule (e rel : Nat) (cont uniq : Bool)
  | cancel (e : Nat)
  | cancelAt (e rel : Nat)
  | cancelAsync (e : Nat)
  | stop
  | throw
deriving DecidableEq, Repr

/-- One call.  A rejected `schedule` throws before changing anything; the caller catches it (and goes on) or
lets it propagate (`throw`).  `stop` is Scheduler.hpp 424-426.  `throw` inside a handler leaves `run`
(Scheduler.cpp has no handler for it: `running_` stays set). -/
def St.exec (cfg : Cfg) (s : St) : Call → St
  | .schedule e rel cont uniq => (s.scheduleEv cfg (.user e) rel cont uniq).getD s
  | .cancel e => s.cancel cfg e
  | .cancelAt e rel => s.cancelAt cfg e rel
  | .cancelAsync e => s.cancelAsync cfg e
  | .stop => { s with running := false }
  | .throw => s

/-- the calls of one handler, in order, up to the first escaping exception -/
def St.execAll (cfg : Cfg) (s : St) : List Call → St
  | [] => s
  | .throw :: _ => { s with pc := .aborted }
  | c :: cs => St.execAll cfg (s.exec cfg c) cs

/-- Scheduler.cpp 236-270 `clearEvents` (outside a run) -/
def St.clearEvents (s : St) : St :=
  { s with queue := [], free := s.free ++ s.queue.map (·.first), latest := 0, finished := true,
           trace := s.trace ++ [.clear] }

/-- Scheduler.cpp 272-292 `restartAt` (outside a run); the ghost trace starts anew -/
def St.restartAt (s : St) (t : Nat) : St :=
  { s.clearEvents with tick := t, elapsed := if s.firstTick || t == 0 then t else t + 1, trace := [] }

/-- `scheduler.stopRunning(); scheduler.restartAt(t)`: the documented way on after an exception
(Scheduler.hpp 605-612) -/
def St.recover (s : St) (t : Nat) : St :=
  St.restartAt { s with running := false, pc := .idle } t

/-- `llabs(int64_t(a) - int64_t(b))` -/
def dist (a b : Nat) : Nat := (a - b) + (b - a)

/-- Scheduler.cpp 650-664: after the run loop -/
def St.finish (s : St) : St :=
  { s with grp := 0, elapsed := s.elapsed + dist s.tick s.elapsed, tick := s.tick + 1, running := false,
           pc := .idle }

/-- Scheduler.cpp:484: is there a quantum, and 499-500: `current_tick_ + num_ticks < current_tick_quantum_->tick` -/
def St.nothingWithin (s : St) (n : Nat) : Bool :=
  match s.queue with
  | [] => true
  | q :: _ => decide (s.tick + n < q.tick)

/-- Scheduler.cpp 432-528: entering `run(num_ticks, exacting)`; `none` = INDEFINITE -/
def St.startRun (cfg : Cfg) (s : St) (n : Option Nat) (exacting : Bool) : St :=
  if n = some 0 then s
  else
    let s1 := { s with firstTick := false, running := !s.queue.isEmpty }
    match n with
    | none => { s1 with finished := !s1.running, pc := .loop }
    | some n =>
      if s1.nothingWithin n then
        if exacting then
          { s1 with tick := s.tick + n, elapsed := s.elapsed + dist (s.tick + n) (s.elapsed + 1),
                    running := false }
        else { s1 with running := false }
      else
        let s2 := (s1.scheduleEv cfg .stop (n - 1) exacting false).getD s1
        { s2 with finished := !s2.running, pc := .loop }

/-- Scheduler.cpp 573-577: schedule the asynchronously requested events; an exception leaves `run` -/
def St.drainAsync (cfg : Cfg) (s : St) : List Async → Option St
  | [] => some s
  | a :: as =>
    match s.scheduleEv cfg (.user a.e) a.rel a.cont false with
    | none => none
    | some s' => St.drainAsync cfg s' as

/-- the state left behind when scheduling an asynchronous request throws: the earlier ones are in the queue,
the list is not cleared -/
def St.drainStuck (cfg : Cfg) (s : St) : List Async → St
  | [] => s
  | a :: as =>
    match s.scheduleEv cfg (.user a.e) a.rel a.cont false with
    | none => { s with pc := .aborted }
    | some s' => St.drainStuck cfg s' as

/-- Scheduler.cpp 535-555: start of a quantum; 592: the `for` loop starts at event 0 -/
def St.enterQuantum (s : St) (q : Quantum) : St :=
  { s with tick := q.tick, elapsed := s.elapsed + dist q.tick s.elapsed, grp := q.first, idx := 0, pc := .firing }

/-- Scheduler.cpp 535-580: start of a quantum and asynchronous requests.  `seen`: whether this thread already
sees the write to `async_event_list_empty_hint_` -/
def St.beginQuantum (cfg : Cfg) (s : St) (q : Quantum) (seen : Bool) : St :=
  let s1 := s.enterQuantum q
  if seen then
    match s1.drainAsync cfg s1.async with
    | some s2 => { s2 with async := [] }
    | none => s1.drainStuck cfg s1.async
  else s1

/-- Scheduler.cpp 611-645: end of a quantum -/
def St.endQuantum (s : St) (q : Quantum) (qs : List Quantum) : St :=
  let s1 := { s with queue := qs, free := s.free ++ [q.first], finished := qs.isEmpty }
  match qs with
  | [] => { s1 with finished := true }.finish
  | q' :: _ => if s.latest < q'.tick then { s1 with finished := true }.finish else { s1 with pc := .loop }

/-- invoke one handler (Scheduler.cpp 598-614): `H` is the program being simulated -/
def St.fireEntry (cfg : Cfg) (H : St → Nat → List Call) (s : St) (x : Entry) : St :=
  match x.ev with
  | none => s
  | some .stop => { s with running := false,
                           trace := s.trace ++ [.fire ⟨x.rid, .stop, s.tick, s.grp, x.cont⟩ s.tick] }
  | some (.user e) =>
    let s1 : St := { s with trace := s.trace ++ [.fire ⟨x.rid, .user e, s.tick, s.grp, x.cont⟩ s.tick] }
    s1.execAll cfg (H s1 e)

/-- One step inside `run`: a `while(running_)` test with the start of a quantum, one event of the inner
`for`, the end of a group, or the end of a quantum (Scheduler.cpp 535-645).  A null
`current_tick_quantum_` would be dereferenced: `aborted`. -/
def St.micro (cfg : Cfg) (H : St → Nat → List Call) (s : St) (seen : Bool) : St :=
  match s.pc with
  | .idle => s
  | .aborted => s
  | .loop =>
    if s.running then
      match s.queue with
      | [] => { s with pc := .aborted }
      | q :: _ => s.beginQuantum cfg q seen
    else s.finish
  | .firing =>
    match s.queue with
    | [] => { s with pc := .aborted }
    | q :: qs =>
      if s.grp < cfg.nGroups then
        match (q.groups s.grp)[s.idx]? with
        | some x =>
          let s' := s.fireEntry cfg H x
          { s' with idx := s.idx + 1 }
        | none =>
          { s with queue := { q with groups := upd q.groups s.grp [] } :: qs, grp := s.grp + 1, idx := 0 }
      else s.endQuantum q qs

/-- All states the scheduler can be in: any calls outside of a run, any `run`, any handlers, asynchronous
requests at any time, `restartAt`, `clearEvents`, and recovery from exceptions. -/
inductive Reach (cfg : Cfg) (H : St → Nat → List Call) : St → Prop
  | init : Reach cfg H St.init
  | call {s} (c : Call) : Reach cfg H s → s.pc = .idle → Reach cfg H (s.exec cfg c)
  | run {s} (n : Option Nat) (exacting : Bool) : Reach cfg H s → s.pc = .idle →
      Reach cfg H (s.startRun cfg n exacting)
  | restart {s} (t : Nat) : Reach cfg H s → s.pc = .idle → Reach cfg H (s.restartAt t)
  | clear {s} : Reach cfg H s → s.pc = .idle → Reach cfg H s.clearEvents
  | recover {s} (t : Nat) : Reach cfg H s → s.pc = .aborted → Reach cfg H (s.recover t)
  | async {s} (a : Async) : Reach cfg H s → Reach cfg H { s with async := s.async ++ [a] }
  | micro {s} (seen : Bool) : Reach cfg H s → Reach cfg H (s.micro cfg H seen)

end Sparta.Scheduler
