import Verif.Common
/-!
Counter triggers and the manager that checks them.

Code: sparta/sparta/trigger/TriggerManager.hpp (`TriggerManager`, `ClockHandler`), sparta/sparta/trigger/ManagedTrigger.hpp,
sparta/sparta/trigger/SingleTrigger.hpp 233-424 (`CounterTrigger`), sparta/src/Trigger.cpp.

Simplifications: triggers, clocks and counters are known by numbers; a trigger number is never reused, so a number
without an entry is an object that was destroyed (or never made).  A counter is a number that the program sets.  The
callback of a trigger is given by a function from a key and the history so far (everything that was called, every
callback run) to the list of calls it makes: callbacks are arbitrary, but they let exceptions through.  An operation `edge c` is the
moment when the oldest tick event pending for clock `c` comes due: all of them are scheduled one period of `c` ahead, so
they come due in the order in which they were scheduled.  All clocks share one scheduler.  An exception out of a tick,
undefined behaviour, and `std::terminate` end the run.  Counters are not destroyed (`counter_wref_`).  Names, the
group of the event, `ContextCounterTrigger`, and the static initialisation of the singleton are not modelled.
-/
namespace Sparta.TrigMan

inductive Err
  | throw
  | ub
  | terminate
deriving DecidableEq, Repr

/-- what the program calls, from the outside or from a callback -/
inductive Act
  | make (clk ctr point cb : Nat)
  | set (t : Nat)
  | deactivate (t : Nat)
  | reset (t point : Nat)
  | destroy (t : Nat)
  | copy (t : Nat)
  | assign (t u : Nat)
  | count (ctr v : Nat)
deriving DecidableEq, Repr

inductive Ev
  | act (a : Act)
  | fired (t v : Nat)
deriving DecidableEq, Repr

/-- ManagedTrigger.hpp 108-114, SingleTrigger.hpp 228, 409-423: the members of a `CounterTrigger`.  `target` is the
object that `register_handler_` is bound to. -/
structure Trig where
  clk : Nat
  ctr : Nat
  point : Nat
  cb : Nat
  active : Bool
  fired : Bool
  target : Nat
deriving DecidableEq, Repr

/-- TriggerManager.hpp 377-404: the members of a `ClockHandler` -/
structure Handler where
  hid : Nat
  trigs : List Nat
  toRem : List Nat
  toAdd : List Nat
  inTick : Bool
deriving DecidableEq, Repr

/-- the manager (TriggerManager.hpp 421 `clocks_`), the triggers, and what the scheduler keeps: the startup handlers and,
per clock, the handlers whose event is pending -/
structure St where
  fin : Bool
  startup : List Nat
  hnd : Nat → Option Handler
  pend : Nat → List Nat
  nextH : Nat
  trig : Nat → Option Trig
  nextT : Nat
  ctr : Nat → Nat
  log : List Ev
  dead : Bool

def init : St :=
  { fin := false, startup := [], hnd := fun _ => none, pend := fun _ => [], nextH := 0, trig := fun _ => none, nextT := 0,
    ctr := fun _ => 0, log := [], dead := false }

def St.putT (s : St) (t : Nat) (g : Trig) : St := { s with trig := upd s.trig t (some g) }

/-- TriggerManager.hpp 230-255 `ClockHandler::hasTrigger` -/
def Handler.has (h : Handler) (t : Nat) : Bool :=
  if h.trigs.contains t then
    if h.toRem.contains t then
      if h.toAdd.contains t then true else false
    else true
  else if h.toAdd.contains t then true else false

/-- TriggerManager.hpp 129-135 `hasTrigger` -/
def hasTrigger (s : St) (t c : Nat) : Bool :=
  match s.hnd c with
  | none => false
  | some h => h.has t

/-- TriggerManager.hpp 294-306 `addTriggerNow_` -/
def Handler.addNow (h : Handler) (t : Nat) : Except Err Handler :=
  if h.trigs.contains t then .error .throw else .ok { h with trigs := h.trigs ++ [t] }

/-- TriggerManager.hpp 213-224 `ClockHandler::addTrigger`, 281-287 `addTriggerDefferred_` -/
def Handler.add (h : Handler) (t : Nat) : Except Err Handler :=
  if h.has t then .error .throw
  else if h.inTick then .ok { h with toAdd := h.toAdd ++ [t] }
  else h.addNow t

/-- TriggerManager.hpp 323-332 `removeTriggerNow_` -/
def Handler.removeNow (h : Handler) (t : Nat) : Handler := { h with trigs := h.trigs.erase t }

/-- TriggerManager.hpp 263-273 `ClockHandler::removeTrigger`, 313-318 `removeTriggerDefferred_` -/
def Handler.remove (h : Handler) (t : Nat) : Handler :=
  if h.inTick then { h with toRem := h.toRem ++ [t] } else h.removeNow t

/-- TriggerManager.hpp 188-197: a new handler schedules its event; 112-118: it is entered into the map -/
def newHandler (s : St) (c : Nat) : St :=
  { s with hnd := upd s.hnd c (some { hid := s.nextH, trigs := [], toRem := [], toAdd := [], inTick := false }),
           pend := upd s.pend c (s.pend c ++ [s.nextH]), nextH := s.nextH + 1 }

/-- TriggerManager.hpp 120: hand the trigger to its clock's handler -/
def addTo (s : St) (t c : Nat) : Except Err St :=
  match s.hnd c with
  | none => .error .ub
  | some h =>
    match h.add t with
    | .error e => .error e
    | .ok h' => .ok { s with hnd := upd s.hnd c (some h') }

/-- TriggerManager.hpp 101-122 `addTrigger` -/
def addTrigger (s : St) (t c : Nat) : Except Err St :=
  if hasTrigger s t c then .error .throw
  else if (s.hnd c).isNone then addTo (newHandler s c) t c
  else addTo s t c

/-- TriggerManager.hpp 141-155 `removeTrigger`: an emptied handler is deleted; its event stays with the scheduler -/
def removeTrigger (s : St) (t c : Nat) : St :=
  match s.hnd c with
  | none => s
  | some h =>
    let h' := h.remove t
    { s with hnd := upd s.hnd c (if h'.trigs.length = 0 then none else some h') }

/-- Trigger.cpp 107-117 `registerSelf_` -/
def registerSelf (s : St) (t : Nat) : Except Err St :=
  match s.trig t with
  | none => .error .ub
  | some g =>
    if s.fin then
      match addTrigger s t g.clk with
      | .error e => .error e
      | .ok s' => .ok (s'.putT t { g with active := true })
    else .ok { s with startup := s.startup ++ [g.target] }

/-- Trigger.cpp 28-44 `CounterTrigger::CounterTrigger`, ManagedTrigger.hpp 86-100 -/
def makeT (s : St) (clk ctr point cb : Nat) : Except Err St :=
  registerSelf ({ s with nextT := s.nextT + 1 }.putT s.nextT
    { clk := clk, ctr := ctr, point := point, cb := cb, active := false, fired := false, target := s.nextT }) s.nextT

/-- Trigger.cpp 78-85 `set` -/
def setT (s : St) (t : Nat) : Except Err St :=
  match s.trig t with
  | none => .error .ub
  | some g => if g.active then .error .throw else registerSelf s t

/-- Trigger.cpp 72-76 `deactivate`, 119-123 `deactivate_`, 114-117 `deregisterSelf_` -/
def deactivateT (s : St) (t : Nat) : Except Err St :=
  match s.trig t with
  | none => .error .ub
  | some g => .ok ((removeTrigger s t g.clk).putT t { g with active := false })

/-- SingleTrigger.hpp 327-331 `resetAbsolute` -/
def resetT (s : St) (t point : Nat) : Except Err St :=
  match s.trig t with
  | none => .error .ub
  | some g => registerSelf ((removeTrigger s t g.clk).putT t { g with active := false, point := point }) t

/-- ManagedTrigger.hpp 59-61 `~ManagedTrigger` -/
def destroyT (s : St) (t : Nat) : Except Err St :=
  match s.trig t with
  | none => .error .ub
  | some g => .ok { removeTrigger s t g.clk with trig := upd s.trig t none }

/-- Trigger.cpp 46-53, SingleTrigger.hpp 84-88, ManagedTrigger.hpp 30-39: copy construction; `has_fired_` starts as false,
`register_handler_` stays bound to the original -/
def copyT (s : St) (t : Nat) : Except Err St :=
  match s.trig t with
  | none => .error .ub
  | some g =>
    let s' := { s with nextT := s.nextT + 1 }.putT s.nextT { g with fired := false }
    if g.active then registerSelf s' s.nextT else .ok s'

/-- ManagedTrigger.hpp 43-54: end the current observation -/
def endObs (s : St) (t : Nat) : Except Err St :=
  match s.trig t with
  | none => .error .ub
  | some g => .ok (removeTrigger (s.putT t { g with active := false }) t g.clk)

/-- Trigger.cpp 59-70 `operator=`, SingleTrigger.hpp 93 (callback and `has_fired_`), ManagedTrigger.hpp 41-57.  The right
hand side is read after the observation of the left hand side has ended. -/
def assignT (s : St) (t u : Nat) : Except Err St :=
  match endObs s t with
  | .error e => .error e
  | .ok s' =>
    match s'.trig u with
    | none => .error .ub
    | some g =>
      if g.active then registerSelf (s'.putT t g) t else .ok (s'.putT t g)

/-- one call -/
def doAct (s : St) : Act → Except Err St
  | .make clk ctr point cb => makeT s clk ctr point cb
  | .set t => setT s t
  | .deactivate t => deactivateT s t
  | .reset t p => resetT s t p
  | .destroy t => destroyT s t
  | .copy t => copyT s t
  | .assign t u => assignT s t u
  | .count c v => .ok { s with ctr := upd s.ctr c v }

/-- note a call in the history and make it -/
def callAct (s : St) (a : Act) : Except Err St := doAct { s with log := s.log ++ [.act a] } a

/-- the calls of a callback -/
def runActs : St → List Act → Except Err St
  | s, [] => .ok s
  | s, a :: as =>
    match callAct s a with
    | .error e => .error e
    | .ok s' => runActs s' as

/-- SingleTrigger.hpp 201-205 `invokeCallback_`; the callback's calls may depend on the history -/
def invoke (prog : Nat → List Ev → List Act) (s : St) (t v cb : Nat) : Except Err St :=
  match runActs { s with log := s.log ++ [.fired t v] } (prog cb (s.log ++ [.fired t v])) with
  | .error e => .error e
  | .ok s' =>
    match s'.trig t with
    | none => .error .ub
    | some g => .ok (s'.putT t { g with fired := true })

/-- ManagedTrigger.hpp 65-74 `check`, SingleTrigger.hpp 402-406 `isTriggerReached_` -/
def check (prog : Nat → List Ev → List Act) (s : St) (t : Nat) : Except Err St :=
  match s.trig t with
  | none => .error .ub
  | some g =>
    if g.active then
      if s.ctr g.ctr ≥ g.point then
        invoke prog (removeTrigger (s.putT t { g with active := false }) t g.clk) t (s.ctr g.ctr) g.cb
      else .ok s
    else .error .throw

/-- TriggerManager.hpp 363-365: the loop over the triggers (the list itself does not change during a tick) -/
def checks (prog : Nat → List Ev → List Act) : St → List Nat → Except Err St
  | s, [] => .ok s
  | s, t :: ts =>
    match check prog s t with
    | .error e => .error e
    | .ok s' => checks prog s' ts

/-- TriggerManager.hpp 348-354 `handleDeferredAdditions_`; it runs in a destructor, so an exception terminates -/
def addAll : Handler → List Nat → Except Err Handler
  | h, [] => .ok h
  | h, t :: ts =>
    match h.addNow t with
    | .error _ => .error .terminate
    | .ok h' => addAll h' ts

/-- TriggerManager.hpp 166-170 `~TickLock`, 337-343 `handleDeferredRemovals_` -/
def unlock (h : Handler) : Except Err Handler :=
  match addAll { h with inTick := false, trigs := h.toRem.foldl List.erase h.trigs, toRem := [] } h.toAdd with
  | .error e => .error e
  | .ok h' => .ok { h' with toAdd := [] }

/-- TriggerManager.hpp 368: schedule the next tick, and the end of `clockTick_` -/
def endTick (s : St) (c : Nat) : Except Err St :=
  match s.hnd c with
  | none => .error .ub
  | some h =>
    match unlock h with
    | .error e => .error e
    | .ok h' => .ok { s with hnd := upd s.hnd c (some h'), pend := upd s.pend c (s.pend c ++ [h.hid]) }

/-- TriggerManager.hpp 358-370 `clockTick_` -/
def clockTick (prog : Nat → List Ev → List Act) (s : St) (c : Nat) (h : Handler) : Except Err St :=
  match checks prog { s with hnd := upd s.hnd c (some { h with inTick := true }) } h.trigs with
  | .error e => .error e
  | .ok s' => endTick s' c

/-- the scheduler calls the event of a handler; if the handler is gone that is a call through a dangling pointer
(Scheduleable.hpp 63: destruction does not take the event off the scheduler) -/
def fireTick (prog : Nat → List Ev → List Act) (s : St) (c hid : Nat) : Except Err St :=
  match s.hnd c with
  | none => .error .ub
  | some h => if h.hid = hid then clockTick prog s c h else .error .ub

def edge (prog : Nat → List Ev → List Act) (s : St) (c : Nat) : Except Err St :=
  match s.pend c with
  | [] => .ok s
  | hid :: rest => fireTick prog { s with pend := upd s.pend c rest } c hid

/-- Scheduler.cpp 465-469: the startup handlers are run -/
def registerAll : St → List Nat → Except Err St
  | s, [] => .ok s
  | s, t :: ts =>
    match registerSelf s t with
    | .error e => .error e
    | .ok s' => registerAll s' ts

def runStartup (s : St) : Except Err St :=
  if s.fin then registerAll { s with startup := [] } s.startup else .error .throw

inductive Op
  | act (a : Act)
  | finalize
  | startup
  | edge (c : Nat)
  | isActive (t : Nat)
  | hasFired (t : Nat)
  | point (t : Nat)
  | has (t : Nat)
deriving DecidableEq, Repr

inductive Ans
  | ok
  | fail (e : Err)
  | bool (b : Bool)
  | num (n : Nat)
  | gone
deriving DecidableEq, Repr

/-- a failure that ends the run -/
def finish (s : St) : Except Err St → St × Ans
  | .ok s' => (s', .ok)
  | .error e => ({ s with dead := true }, .fail e)

/-- a call from the outside: the caller may handle an exception; every exception is thrown before anything has changed -/
def finishAct (s : St) : Except Err St → St × Ans
  | .ok s' => (s', .ok)
  | .error .throw => (s, .fail .throw)
  | .error e => ({ s with dead := true }, .fail e)

def ask (s : St) (t : Nat) (f : Trig → Ans) : St × Ans :=
  match s.trig t with
  | none => ({ s with dead := true }, .fail .ub)
  | some g => (s, f g)

def live (prog : Nat → List Ev → List Act) (s : St) : Op → St × Ans
  | .act a => finishAct s (callAct s a)
  | .finalize => ({ s with fin := true }, .ok)
  | .startup => finish s (runStartup s)
  | .edge c => finish s (edge prog s c)
  | .isActive t => ask s t fun g => .bool g.active
  | .hasFired t => ask s t fun g => .bool g.fired
  | .point t => ask s t fun g => .num g.point
  | .has t => ask s t fun g => .bool (hasTrigger s t g.clk)

def step (prog : Nat → List Ev → List Act) (s : St) (o : Op) : St × Ans :=
  if s.dead then (s, .gone) else live prog s o

end Sparta.TrigMan
