import Verif.Common
/-!
Cycle triggers: a callback at a given cycle of a clock, or a number of cycles from now.

Code: sparta/sparta/trigger/SingleTrigger.hpp 432-679 (`CycleTrigger`), 33-75 (`TriggerEvent`), 201-205; sparta/sparta/simulation/Clock.hpp
159-172 and 207-210; sparta/src/Scheduler.cpp 294-350 and 462-470.

Simplifications: one trigger (they do not share anything but the scheduler); the clocks are numbers with a period in ticks,
`per k`.  Times and cycles do not overflow, except in one place: an absolute cycle that has passed makes the unsigned
difference wrap around, the event is inserted before the current tick and the scheduler's list is no longer in order; that is
the failure `past`.  The history notes every call that did not fail and every callback, with the tick.  A callback is any
function of the history; an exception that it lets through ends the run.  `wait` lets time pass until the next event of
the trigger at most; `fire` is the moment when the scheduler calls the trigger's next event.
-/
namespace Sparta.CycTrig

inductive Err
  | throw
  | ub
  | past
deriving DecidableEq, Repr

/-- SingleTrigger.hpp 668-679: the members -/
structure CT where
  set : Bool
  sched : Bool
  relP : Bool
  absP : Bool
  align : Bool
  clk : Nat
  at_ : Nat
  delay : Nat
deriving DecidableEq, Repr

def newCT : CT := { set := false, sched := false, relP := false, absP := false, align := false, clk := 0, at_ := 0, delay := 0 }

/-- what `set_` asks of the scheduler -/
inductive Req
  | startup
  | at_ (due : Nat)
deriving DecidableEq, Repr

/-- SingleTrigger.hpp 621-626: the delay in cycles of a relative trigger -/
def relDelay (per : Nat → Nat) (now : Nat) (c : CT) : Except Err Nat :=
  if c.align then
    if c.delay = 0 then .error .ub else .ok (c.delay - (now / per c.clk) % c.delay)
  else .ok c.delay

/-- SingleTrigger.hpp 629: the delay in cycles of an absolute trigger -/
def absDelay (per : Nat → Nat) (now : Nat) (c : CT) : Except Err Nat :=
  if c.at_ < now / per c.clk then .error .past else .ok (c.at_ - now / per c.clk)

/-- SingleTrigger.hpp 619-634 -/
def delayOf (per : Nat → Nat) (now : Nat) (c : CT) : Except Err Nat :=
  if c.relP then relDelay per now c
  else if c.absP then absDelay per now c
  else .error .throw

/-- SingleTrigger.hpp 613-643 `set_` -/
def CT.set_ (per : Nat → Nat) (fin : Bool) (now : Nat) (c : CT) : Except Err (CT × Req) :=
  if fin then
    match delayOf per now c with
    | .error e => .error e
    | .ok d => .ok ({ c with set := true, sched := true }, .at_ (now + d * per c.clk))
  else .ok ({ c with set := true }, .startup)

/-- SingleTrigger.hpp 496-507 `set` -/
def CT.doSet (per : Nat → Nat) (fin : Bool) (now : Nat) (c : CT) : Except Err (CT × Req) :=
  if c.set then .error .throw
  else if !(c.relP || c.absP) then .error .throw
  else if c.relP && c.absP then .error .throw
  else c.set_ per fin now

/-- SingleTrigger.hpp 603-606 `check_safe` -/
def CT.checkSafe (c : CT) : Except Err CT := if c.set || c.sched then .error .throw else .ok c

/-- SingleTrigger.hpp 528-534 `prepAbsolute` -/
def CT.prepAbs (c : CT) (clk n : Nat) : Except Err CT :=
  match c.checkSafe with
  | .error e => .error e
  | .ok c => .ok { c with clk := clk, at_ := n, absP := true }

/-- SingleTrigger.hpp 543-549 `prepRelative` -/
def CT.prepRel (c : CT) (clk n : Nat) : Except Err CT :=
  match c.checkSafe with
  | .error e => .error e
  | .ok c => .ok { c with clk := clk, delay := n, relP := true }

/-- SingleTrigger.hpp 556-560 `alignRelative` -/
def CT.doAlign (c : CT) (b : Bool) : Except Err CT :=
  match c.checkSafe with
  | .error e => .error e
  | .ok c => .ok { c with align := b }

/-- SingleTrigger.hpp 568-573 `setAbsolute` -/
def CT.setAbs (per : Nat → Nat) (fin : Bool) (now : Nat) (c : CT) (clk n : Nat) : Except Err (CT × Req) :=
  match c.prepAbs clk n with
  | .error e => .error e
  | .ok c => c.set_ per fin now

/-- SingleTrigger.hpp 579-584 `setRelative` -/
def CT.setRel (per : Nat → Nat) (fin : Bool) (now : Nat) (c : CT) (clk n : Nat) : Except Err (CT × Req) :=
  match c.prepRel clk n with
  | .error e => .error e
  | .ok c => c.set_ per fin now

inductive Act
  | prepAbs (clk n : Nat)
  | prepRel (clk n : Nat)
  | align (b : Bool)
  | set
  | setAbs (clk n : Nat)
  | setRel (clk n : Nat)
  | deactivate
deriving DecidableEq, Repr

inductive Ev
  | act (time : Nat) (a : Act)
  | fired (time : Nat)
deriving DecidableEq, Repr

/-- the trigger and what the scheduler keeps for it -/
structure St where
  now : Nat
  fin : Bool
  started : Bool
  ct : CT
  hasFired : Bool
  startups : Nat
  pend : List Nat
  log : List Ev
  dead : Bool

def init : St :=
  { now := 0, fin := false, started := false, ct := newCT, hasFired := false, startups := 0, pend := [], log := [], dead := false }

/-- hand a request to the scheduler -/
def St.request (s : St) : Req → St
  | .startup => { s with startups := s.startups + 1 }
  | .at_ d => { s with pend := s.pend ++ [d] }

def St.plain (s : St) : Except Err CT → Except Err St
  | .error e => .error e
  | .ok c => .ok { s with ct := c }

def St.asking (s : St) : Except Err (CT × Req) → Except Err St
  | .error e => .error e
  | .ok (c, q) => .ok ({ s with ct := c }.request q)

/-- the calls; `deactivate`: SingleTrigger.hpp 482-485 -/
def doAct (per : Nat → Nat) (s : St) : Act → Except Err St
  | .prepAbs k n => s.plain (s.ct.prepAbs k n)
  | .prepRel k n => s.plain (s.ct.prepRel k n)
  | .align b => s.plain (s.ct.doAlign b)
  | .set => s.asking (s.ct.doSet per s.fin s.now)
  | .setAbs k n => s.asking (s.ct.setAbs per s.fin s.now k n)
  | .setRel k n => s.asking (s.ct.setRel per s.fin s.now k n)
  | .deactivate => .ok { s with ct := { s.ct with set := false } }

def callAct (per : Nat → Nat) (s : St) (a : Act) : Except Err St := doAct per { s with log := s.log ++ [.act s.now a] } a

def runActs (per : Nat → Nat) : St → List Act → Except Err St
  | s, [] => .ok s
  | s, a :: as =>
    match callAct per s a with
    | .error e => .error e
    | .ok s' => runActs per s' as

/-- SingleTrigger.hpp 201-205 `invokeCallback_`: the callback runs after `trigger_set_` has been cleared -/
def invokeCb (per : Nat → Nat) (prog : List Ev → List Act) (s : St) : Except Err St :=
  match runActs per { s with log := s.log ++ [.fired s.now] } (prog (s.log ++ [.fired s.now])) with
  | .error e => .error e
  | .ok s' => .ok { s' with hasFired := true }

/-- SingleTrigger.hpp 657-666 `invoke_` -/
def invoke (per : Nat → Nat) (prog : List Ev → List Act) (s : St) : Except Err St :=
  if s.ct.set then
    match invokeCb per prog { s with ct := { s.ct with set := false } } with
    | .error e => .error e
    | .ok s' => .ok { s' with ct := { s'.ct with sched := false } }
  else .ok { s with ct := { s.ct with sched := false } }

/-- the earliest time in a list -/
def earliest : List Nat → Option Nat
  | [] => none
  | d :: ds =>
    match earliest ds with
    | none => some d
    | some e => some (min d e)

/-- time passes, up to the trigger's next event -/
def wait (s : St) (n : Nat) : St :=
  if s.started then
    match earliest s.pend with
    | none => { s with now := s.now + n }
    | some d => { s with now := min (s.now + n) d }
  else s

/-- the scheduler calls the next event -/
def fire (per : Nat → Nat) (prog : List Ev → List Act) (s : St) : Except Err St :=
  if s.started then
    match earliest s.pend with
    | none => .ok s
    | some d => invoke per prog { s with now := d, pend := s.pend.erase d }
  else .ok s

/-- Scheduler.cpp 462-470: the startup handlers; SingleTrigger.hpp 648-651 `postDAGFinalized_` -/
def runStartups (per : Nat → Nat) : Nat → St → Except Err St
  | 0, s => .ok s
  | n + 1, s =>
    match s.asking (s.ct.set_ per s.fin s.now) with
    | .error e => .error e
    | .ok s' => runStartups per n s'

def startup (per : Nat → Nat) (s : St) : Except Err St :=
  if s.fin then runStartups per s.startups { s with startups := 0, started := true } else .error .throw

inductive Op
  | act (a : Act)
  | finalize
  | startup
  | wait (n : Nat)
  | fire
  | isActive
  | hasFired
deriving DecidableEq, Repr

inductive Ans
  | ok
  | fail (e : Err)
  | bool (b : Bool)
  | gone
deriving DecidableEq, Repr

def finish (s : St) : Except Err St → St × Ans
  | .ok s' => (s', .ok)
  | .error e => ({ s with dead := true }, .fail e)

/-- a call from the outside: the caller may handle an exception; nothing has changed then (the failing branch of `set_` that
has set the flag cannot be reached) -/
def finishAct (s : St) : Except Err St → St × Ans
  | .ok s' => (s', .ok)
  | .error .throw => (s, .fail .throw)
  | .error e => ({ s with dead := true }, .fail e)

def live (per : Nat → Nat) (prog : List Ev → List Act) (s : St) : Op → St × Ans
  | .act a => finishAct s (callAct per s a)
  | .finalize => ({ s with fin := true }, .ok)
  | .startup => finish s (startup per s)
  | .wait n => (wait s n, .ok)
  | .fire => finish s (fire per prog s)
  | .isActive => (s, .bool s.ct.set)
  | .hasFired => (s, .bool s.hasFired)

def step (per : Nat → Nat) (prog : List Ev → List Act) (s : St) (o : Op) : St × Ans :=
  if s.dead then (s, .gone) else live per prog s o

end Sparta.CycTrig
