import Verif.Common
/-!
# Unique events (sparta/sparta/events/PhasedUniqueEvent.hpp, UniqueEvent.hpp, PhasedSingleCycleUniqueEvent.hpp,
SingleCycleUniqueEvent.hpp)

A unique event and a single cycle unique event, each with the part of the scheduler's queue that holds it.

Simplifications: ticks are unbounded natural numbers; the order of groups within a tick appears only as
the flag `late` of a request, which says that the group of the event has already been passed in this tick
(Scheduler.cpp 379-394 then throws for a delay of zero).  The scheduler itself is the component
`Scheduler`; here it is used through what is proved there: a waiting entry fires once in its tick, and
time does not pass an entry.
-/
namespace Sparta.UniqEv

/-- Why a request is refused. -/
inductive Err
  /-- PhasedUniqueEvent.hpp 94-97: it fired in that tick. -/
  | fired
  /-- Scheduler.cpp 379-394: its group has been passed in this tick. -/
  | precedence
  /-- PhasedSingleCycleUniqueEvent.hpp 120-123: more than one cycle ahead. -/
  | tooFar
deriving DecidableEq, Repr

/-- The queue as far as one event goes: the present tick, the ticks for which an entry is waiting, and the
ticks in which the handler was called, in order. -/
structure Q where
  now : Nat := 0
  waiting : List Nat := []
  log : List Nat := []
deriving DecidableEq

/-- Time goes on; it does not pass a waiting entry. -/
def Q.advance (q : Q) (n : Nat) : Q :=
  if q.waiting.any (fun t => decide (t < q.now + n)) then q else { q with now := q.now + n }

/-- Scheduler.cpp 597-620: the handler is called. -/
def Q.fire (q : Q) : Q :=
  if q.now ∈ q.waiting then { q with waiting := q.waiting.erase q.now, log := q.log ++ [q.now] } else q

/-- Scheduler.cpp 398-403, an entry is added. -/
def Q.add (q : Q) (t : Nat) : Q := { q with waiting := q.waiting ++ [t] }

/-- Scheduler.cpp 732-760, every entry is cancelled. -/
def Q.cancel (q : Q) : Q := { q with waiting := [] }

/-- Scheduler.cpp 762-797, the entries of one tick are cancelled. -/
def Q.cancelAt (q : Q) (t : Nat) : Q := { q with waiting := q.waiting.filter (· ≠ t) }

/-- Scheduler.cpp 272-292 `restartAt`. -/
def Q.restart (q : Q) (t : Nat) : Q := { q with now := t, waiting := [] }

/-! ## UniqueEvent -/

/-- PhasedUniqueEvent.hpp 130-136: the last tick in which it was called (`Tick(-1)` is `none`). -/
structure U where
  q : Q := {}
  last : Option Nat := none
deriving DecidableEq

inductive UOp
  | advance (n : Nat)
  | fire
  | schedule (rel : Nat) (late : Bool)
  | cancel
  | cancelAt (rel : Nat)
  /-- an asynchronous request (Scheduler.cpp 424-430, 567-580) reaches the queue -/
  | drained (rel : Nat)
  | restart (t : Nat)
deriving DecidableEq, Repr

/-- PhasedUniqueEvent.hpp 90-101 `scheduleRelativeTick` with Scheduler.cpp 353-422 and Scheduler.hpp 270-282
(not added twice). -/
def U.schedule (u : U) (rel : Nat) (late : Bool) : U × Option Err :=
  if u.last = some (u.q.now + rel) then (u, some .fired)
  else if rel = 0 ∧ late = true then (u, some .precedence)
  else if u.q.now + rel ∈ u.q.waiting then (u, none)
  else ({ u with q := u.q.add (u.q.now + rel) }, none)

/-- PhasedUniqueEvent.hpp 115-123 `deliverEvent_`: the tick is noted before the handler is called. -/
def U.fire (u : U) : U :=
  if u.q.now ∈ u.q.waiting then { q := u.q.fire, last := some u.q.now } else u

def U.step (u : U) : UOp → U × Option Err
  | .advance n => ({ u with q := u.q.advance n }, none)
  | .fire => (u.fire, none)
  | .schedule rel late => u.schedule rel late
  | .cancel => ({ u with q := u.q.cancel }, none)
  | .cancelAt rel => ({ u with q := u.q.cancelAt (u.q.now + rel) }, none)
  | .drained rel => ({ u with q := u.q.add (u.q.now + rel) }, none)
  | .restart t => ({ u with q := u.q.restart t }, none)

def U.run (u : U) (ops : List UOp) : U × List (Option Err) := runOps U.step u ops

/-! ## SingleCycleUniqueEvent -/

/-- PhasedSingleCycleUniqueEvent.hpp 188-209: the period of its clock, the farthest tick it was scheduled
for, the one before, and whether it was never scheduled. -/
structure S where
  q : Q := {}
  period : Nat
  next : Nat := 0
  prev : Nat := 0
  first : Bool := true
deriving DecidableEq

inductive SOp
  | advance (n : Nat)
  | fire
  | schedule (cycles : Nat) (late : Bool)
  | cancel
  | restart (t : Nat)
deriving DecidableEq, Repr

/-- PhasedSingleCycleUniqueEvent.hpp 119-163 `schedule`, without the checks of debug builds (135-140,
150-157): the two branches that schedule are told apart, and an exception from the scheduler leaves the
members as they were. -/
def S.schedule (s : S) (cycles : Nat) (late : Bool) : S × Option Err :=
  if ¬ cycles < 2 then (s, some .tooFar)
  else
    let rel := cycles * s.period
    let t := s.q.now + rel
    if s.next < t ∨ s.first = true then
      if rel = 0 ∧ late = true then (s, some .precedence)
      else ({ s with q := s.q.add t, prev := s.next, next := t, first := false }, none)
    else if t < s.next ∧ s.prev ≠ t then
      if rel = 0 ∧ late = true then (s, some .precedence)
      else ({ s with q := s.q.add t, prev := t }, none)
    else (s, none)

/-- PhasedSingleCycleUniqueEvent.hpp 90-92 `cancel`: the members are not changed. -/
def S.step (s : S) : SOp → S × Option Err
  | .advance n => ({ s with q := s.q.advance n }, none)
  | .fire => ({ s with q := s.q.fire }, none)
  | .schedule c late => s.schedule c late
  | .cancel => ({ s with q := s.q.cancel }, none)
  | .restart t => ({ s with q := s.q.restart t }, none)

def S.run (s : S) (ops : List SOp) : S × List (Option Err) := runOps S.step s ops

/-- PhasedSingleCycleUniqueEvent.hpp 135-140 and 150-157: the checks of debug builds hold.  The queue of
the present tick still holds the entries that have fired. -/
def S.debugOk (s : S) (cycles : Nat) : Bool :=
  let t := s.q.now + cycles * s.period
  let there := decide (t ∈ s.q.waiting) || (decide (t = s.q.now) && decide (t ∈ s.q.log))
  if s.next < t ∨ s.first = true then !there
  else if t < s.next ∧ s.prev ≠ t then !there && decide (s.prev < t)
  else true

end Sparta.UniqEv
