import Verif.Common
/-!
Model of `sparta::SignalOutPort` and `sparta::SignalInPort` (/repo/sparta/sparta/ports/SignalPort.hpp), with the unique event that delivers signals
(/repo/sparta/sparta/events/PhasedUniqueEvent.hpp, see UniqEv) and `DataContainer` (/repo/sparta/sparta/utils/DataContainer.hpp).

Any number of out ports and `n` in ports on one clock; time is counted in its cycles. `fire i` is the scheduler firing the delivery event of in port `i`,
`goto k` its going on to phase `k`, `next` its going on to the next cycle; it does not go past an event that waits. Calls that cannot be made in a
state return `busy`. Calls made by handlers are calls after the one that called the handler.
Not modelled: precedence, collection, cycles of the scheduler that wrap at 2^64.
-/
namespace Sparta.SigPort

/-- SignalPort.hpp 158-183: what is fixed when ports are constructed: the number of in ports, their delays and phases -/
structure Config where
  n : Nat
  delay : Nat → Nat
  phase : Nat → Nat

/-- the phase chosen by the constructor without a phase, SignalPort.hpp 188-192: Tick for delay 0, else PortUpdate (phases are numbered as in events/SchedulingPhases.hpp) -/
def defaultPhase (delay : Nat) : Nat := if delay = 0 then 5 else 2

/-- `SignalInPort`: the cycles its delivery event waits for, the last cycle in which it fired (PhasedUniqueEvent.hpp 130-136), `data_` and
`data_valid_time_stamp_` (DataContainer.hpp 115-118), and the signals received: the cycle, and whether the sender called the handler itself -/
structure In where
  waiting : List Nat := []
  last : Option Nat := none
  valid : Bool := false
  stamp : Nat := 0
  log : List (Nat × Bool) := []
deriving DecidableEq

structure Sys where
  cfg : Config
  now : Nat := 0
  phase : Nat := 0
  outs : Nat → List Nat := fun _ => []
  ins : Nat → In := fun _ => {}

inductive Op where
  | bind (o i : Nat)
  | send (o rel : Nat)
  | fire (i : Nat)
  | goto (k : Nat)
  | next
  | received (i : Nat)
  | receivedNow (i : Nat)
  | stamp (i : Nat)
  | pull (i : Nat)
  | clear (i : Nat)
deriving DecidableEq

inductive Res where
  | done
  | threw
  | busy
  | yes (b : Bool)
  | num (n : Nat)
deriving DecidableEq, Repr

/-- SignalPort.hpp 303-310 `receiveSignal_` with `setData_`, DataContainer.hpp 107-110 -/
def In.recv (p : In) (now : Nat) (direct : Bool) : In := { p with valid := true, stamp := now, log := p.log ++ [(now, direct)] }

/-- PhasedUniqueEvent.hpp 90-101 `schedule`, in a cycle in which the group of the event has not been passed; `none` = exception -/
def In.schedule (p : In) (now rel : Nat) : Option In :=
  if p.last = some (now + rel) then none
  else if now + rel ∈ p.waiting then some p
  else some { p with waiting := p.waiting ++ [now + rel] }

/-- SignalPort.hpp 283-297 `send_`; `total_delay` is a `uint32_t`; Port.hpp 456-474 -/
def In.send (p : In) (now cur delay phase rel : Nat) : Option In :=
  let total := (rel + delay) % 2 ^ 32
  if total = 0 then
    if phase < cur then none
    else if phase = cur then some (p.recv now true)
    else p.schedule now total
  else p.schedule now total

/-- the loop of `SignalOutPort::send`, SignalPort.hpp 353-355; an exception ends it -/
def Sys.sendAll (s : Sys) (rel : Nat) : List Nat → Sys × Res
  | [] => (s, .done)
  | i :: l =>
    match (s.ins i).send s.now s.phase (s.cfg.delay i) (s.cfg.phase i) rel with
    | none => (s, .threw)
    | some p => Sys.sendAll { s with ins := upd s.ins i p } rel l

/-- an event of an in port waits in this cycle -/
def Sys.waits (s : Sys) (i : Nat) : Bool := decide (s.now ∈ (s.ins i).waiting)

def Sys.step (s : Sys) : Op → Sys × Res
  -- `bind`: Port.hpp 589-651; ports are not bound twice
  | .bind o i =>
    if i < s.cfg.n then
      if (s.outs o).contains i then (s, .threw) else ({ s with outs := upd s.outs o (s.outs o ++ [i]) }, .done)
    else (s, .busy)
  -- `SignalOutPort::send`, SignalPort.hpp 349-356
  | .send o rel => if s.outs o = [] then (s, .threw) else s.sendAll rel (s.outs o)
  -- PhasedUniqueEvent.hpp 117-126 `deliverEvent_`
  | .fire i =>
    if i < s.cfg.n ∧ s.cfg.phase i = s.phase ∧ s.waits i then
      ({ s with ins := upd s.ins i (In.recv { s.ins i with waiting := (s.ins i).waiting.erase s.now, last := some s.now } s.now false) }, .done)
    else (s, .busy)
  | .goto k =>
    if s.phase ≤ k ∧ (List.range s.cfg.n).all (fun i => !(decide (s.cfg.phase i < k) && s.waits i)) then ({ s with phase := k }, .done)
    else (s, .busy)
  | .next =>
    if (List.range s.cfg.n).all (fun i => !s.waits i) then ({ s with now := s.now + 1, phase := 0 }, .done) else (s, .busy)
  -- DataContainer.hpp 48-50, 59-62, 99-102, 72-77, 90-92
  | .received i => (s, .yes (s.ins i).valid)
  | .receivedNow i => (s, .yes ((s.ins i).valid && decide ((s.ins i).stamp = s.now)))
  | .stamp i => if (s.ins i).valid then (s, .num (s.ins i).stamp) else (s, .threw)
  | .pull i =>
    if (s.ins i).valid then ({ s with ins := upd s.ins i { s.ins i with valid := false } }, .yes true) else (s, .threw)
  | .clear i => ({ s with ins := upd s.ins i { s.ins i with valid := false } }, .done)

def init (cfg : Config) : Sys := { cfg := cfg }

def run (s : Sys) (os : List Op) : Sys × List Res := runOps Sys.step s os

end Sparta.SigPort
