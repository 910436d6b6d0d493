import Verif.PayloadEvent.Model
/-!
Model of `sparta::DataOutPort` and `sparta::DataInPort` (/repo/sparta/sparta/ports/DataPort.hpp), of the parts of `Port`,
`InPort` and `OutPort` they use (/repo/sparta/sparta/ports/Port.hpp) and of `DataContainer`
(/repo/sparta/sparta/utils/DataContainer.hpp). The delivery event of an in port is the model of payload events.

Any number of out ports and `n` in ports, one clock. User code is not a function here: a handler starts when data is
delivered, the calls that follow are made by it, `ret` ends it. `stack` are the calls that are running, innermost first;
`fire i` is the scheduler firing the next delivery of in port `i`, `phase k` the scheduler going on to phase `k`, `pass i` its
going on to a group of the same phase after that of in port `i`, `next` the next cycle. Calls that cannot be made in a state
(the user is not running while `send` loops over the ports, the scheduler is not running while a handler does) do
nothing and return `busy`. A port without a handler is one whose handler does nothing.
Not modelled: precedence between the events of different ports, collection, data types (ports of different types are refused
when they are bound), exceptions thrown by handlers.
-/
namespace Sparta.DataPort

open Sparta.PayloadEvent (PE)

/-- the number of values of `uint32_t` -/
def half : Nat := 2 ^ 32

/-- What is fixed when the ports are constructed: number of in ports, their delays and delivery phases, the frequencies of
out and in ports, and the capacity of payload events (PhasedPayloadEvent.hpp 624: 1100) -/
structure Config where
  n : Nat
  delay : Nat → Nat
  phase : Nat → Nat
  ofreq : Nat → Nat
  ifreq : Nat → Nat
  cap : Nat

/-- the delivery phase chosen by the constructor without a phase, DataPort.hpp 353-355: Tick for delay 0, else PortUpdate
(phases are numbered as in events/SchedulingPhases.hpp 57-68) -/
def defaultPhase (delay : Nat) : Nat := if delay = 0 then 5 else 2

/-- `DataInPort` with its `DataContainer`: `user_payload_delivery_`, `data_` (valid flag and value), `data_valid_time_stamp_`, the
bound out ports and whether its events are continuing -/
structure InP (α : Type) where
  pe : PE α
  valid : Bool
  val : Option α
  stamp : Nat
  bound : List Nat
  cont : Bool

/-- a running call: `send` with the in ports it has not reached yet, a handler called by `send`, a handler called by the delivery event -/
inductive Frame (α : Type) where
  | sending (x : α) (d : Nat) (rest : List Nat)
  | direct (i : Nat)
  | event (i : Nat)

structure Sys (α : Type) where
  cfg : Config
  now : Nat
  phase : Nat
  /-- `bound_ports_` and `bound_in_ports_` of the out ports (both get the same port, DataPort.hpp 120-121, Port.hpp 648) -/
  outs : Nat → List Nat
  ocont : Nat → Bool
  ins : Nat → InP α
  stack : List (Frame α)

inductive Res (α : Type) where
  | threw
  | busy
  | done
  | idle
  | num (n : Nat)
  | yes (b : Bool)
  | data (x : α)
  /-- the handler of in port `i` is called with `x` -/
  | deliver (i : Nat) (x : α)
  /-- undefined behaviour -/
  | ub
deriving DecidableEq

variable {α : Type}

def InP.init (α : Type) (cap : Nat) : InP α := ⟨.init α cap, false, none, 0, [], true⟩

def Sys.init (α : Type) (cfg : Config) : Sys α :=
  ⟨cfg, 0, 0, fun _ => [], fun _ => true, fun _ => .init α cfg.cap, []⟩

def Sys.setIn (s : Sys α) (i : Nat) (p : InP α) : Sys α := { s with ins := upd s.ins i p }

/-- `OutPort::bind`, Port.hpp 575-636, with `DataOutPort::bind`, DataPort.hpp 115-124, and `InPort::bind_`, Port.hpp 451-453.
`DataInPort::bind` (358-367) and `InPort::bind` (Port.hpp 366-376) call it. -/
def Sys.bind (s : Sys α) (o i : Nat) : Sys α × Res α :=
  if s.cfg.ifreq i ≠ s.cfg.ofreq o then (s, .threw)
  else if (s.outs o).contains i then (s, .threw)
  else ({ s.setIn i { s.ins i with cont := s.ocont o, bound := (s.ins i).bound ++ [o] } with outs := upd s.outs o (s.outs o ++ [i]) }, .done)

/-- `DataContainer::setData_`, DataContainer.hpp 107-110 -/
def InP.setData (p : InP α) (now : Nat) (x : α) : InP α := { p with valid := true, val := some x, stamp := now }

/-- `preparePayload(dat)->schedule(total_delay)` and the end of the temporary handle, DataPort.hpp 526 -/
def queue (pe : PE α) (x : α) (d : Nat) : PE α × Bool :=
  match pe.prepare x with
  | (pe, .handle k) =>
    match pe.step (.schedule k d) with
    | (pe, .done) => ((pe.step (.drop k)).1, true)
    | (pe, _) => ((pe.step (.drop k)).1, false)
  | (pe, _) => (pe, false)

/-- `DataInPort::send_`, DataPort.hpp 504-519; `total_delay` is a `uint32_t`. Result: the system, the handler to be called
now if any, false for an exception -/
def Sys.sendTo (s : Sys α) (x : α) (d i : Nat) : Sys α × Bool × Bool :=
  let total := (d + s.cfg.delay i) % half
  if total = 0 ∧ s.cfg.phase i < s.phase then (s, false, false)
  else if total = 0 ∧ s.cfg.phase i = s.phase then (s.setIn i ((s.ins i).setData s.now x), true, true)
  else
    let q := queue (s.ins i).pe x total
    (s.setIn i { s.ins i with pe := q.1 }, false, q.2)

/-- one round of the loop of `DataOutPort::send`, DataPort.hpp 146-148 -/
def Sys.cont (s : Sys α) : Sys α × Res α :=
  match s.stack with
  | .sending x d (i :: rest) :: st =>
    match s.sendTo x d i with
    | (s', _, false) => ({ s' with stack := st }, .threw)
    | (s', true, true) => ({ s' with stack := .direct i :: .sending x d rest :: st }, .deliver i x)
    | (s', false, true) => ({ s' with stack := .sending x d rest :: st }, .done)
  | .sending _ _ [] :: st => ({ s with stack := st }, .done)
  | _ => (s, .busy)

/-- the scheduler fires the next delivery of in port `i`: `receivePortData_`, DataPort.hpp 537-548 -/
def Sys.fire (s : Sys α) (i : Nat) : Sys α × Res α :=
  if i < s.cfg.n ∧ s.cfg.phase i = s.phase ∧ (s.ins i).pe.past = false then
    match (s.ins i).pe.fire with
    | (pe, .payload x) =>
      ({ s.setIn i (InP.setData { s.ins i with pe := pe } s.now x) with stack := .event i :: s.stack }, .deliver i x)
    | (pe, .idle) => (s.setIn i { s.ins i with pe := pe }, .idle)
    | (pe, .threw) => (s.setIn i { s.ins i with pe := pe }, .threw)
    | (pe, _) => (s.setIn i { s.ins i with pe := pe }, .ub)
  else (s, .busy)

/-- the handler on top returns -/
def Sys.ret (s : Sys α) : Sys α × Res α :=
  match s.stack with
  | .direct _ :: st => ({ s with stack := st }, .done)
  | .event i :: st => ({ s.setIn i { s.ins i with pe := (s.ins i).pe.ret.1 } with stack := st }, .done)
  | _ => (s, .busy)

/-- all in ports for which `f` holds have no delivery left in this cycle -/
def Sys.over (s : Sys α) (f : Nat → Bool) : Bool := (List.range s.cfg.n).all fun i => !f i || (s.ins i).pe.over

/-- all in ports for which `f` holds do `op` -/
def Sys.each (s : Sys α) (f : Nat → Bool) (op : PayloadEvent.Op α) : Sys α :=
  { s with ins := fun i => if f i then { s.ins i with pe := ((s.ins i).pe.step op).1 } else s.ins i }

/-- events of phase `k` fire next (Scheduler.cpp 583-616); groups of one phase come after those of earlier phases -/
def Sys.toPhase (s : Sys α) (k : Nat) : Sys α × Res α :=
  if s.phase ≤ k ∧ s.over (fun i => decide (s.cfg.phase i < k)) then
    ({ s.each (fun i => decide (s.cfg.phase i < k)) .pass with phase := k }, .done)
  else (s, .busy)

/-- the scheduler goes on to a group of this phase after that of in port `i` -/
def Sys.pass (s : Sys α) (i : Nat) : Sys α × Res α :=
  if s.cfg.phase i = s.phase ∧ (s.ins i).pe.over then (s.setIn i { s.ins i with pe := ((s.ins i).pe.step .pass).1 }, .done)
  else (s, .busy)

/-- the next cycle; the phase is that of the next event that fires, or Trigger outside of runs (Scheduler.cpp 659) -/
def Sys.next (s : Sys α) : Sys α × Res α :=
  if s.over (fun _ => true) then ({ s.each (fun _ => true) .next with now := s.now + 1, phase := 0 }, .done)
  else (s, .busy)

/-- the number returned by `cancel` and `cancelIf` of a payload event -/
def numOf : PayloadEvent.Res α → Nat
  | .num k => k
  | _ => 0

/-- an operation on the delivery event of in port `i`, with a number as result -/
def Sys.cancelIn (s : Sys α) (op : PayloadEvent.Op α) (i : Nat) : Sys α × Nat :=
  (s.setIn i { s.ins i with pe := ((s.ins i).pe.step op).1 }, numOf ((s.ins i).pe.step op).2)

/-- the loop of `DataOutPort::cancel` and `cancelIf`, DataPort.hpp 193-200, 212-218, 230-236 -/
def Sys.cancelOut (s : Sys α) (op : PayloadEvent.Op α) : List Nat → Sys α × Nat
  | [] => (s, 0)
  | i :: is =>
    let r := (s.cancelIn op i).1.cancelOut op is
    (r.1, (s.cancelIn op i).2 + r.2)

/-- `isDriven`, DataPort.hpp 395-406 -/
def InP.driven (p : InP α) (op : PayloadEvent.Op α) : Bool :=
  match (p.pe.step op).2 with
  | .yes b => b
  | _ => false

inductive Op (α : Type) where
  | bind (o i : Nat)
  | send (o : Nat) (x : α) (d : Nat)
  | cont
  | fire (i : Nat)
  | ret
  | toPhase (k : Nat)
  | pass (i : Nat)
  | next
  | cancelIn (i : Nat)
  | cancelIfIn (i : Nat) (f : α → Bool)
  | cancelOut (o : Nat)
  | cancelIfOut (o : Nat) (f : α → Bool)
  | drivenIn (i : Nat)
  | drivenInAt (i rel : Nat)
  | drivenOut (o : Nat)
  | drivenOutAt (o rel : Nat)
  | received (i : Nat)
  | receivedNow (i : Nat)
  | pull (i : Nat)
  | peek (i : Nat)
  | clear (i : Nat)
  | stamp (i : Nat)
  | setContOut (o : Nat) (b : Bool)
  | setContIn (i : Nat) (b : Bool)
  | isCont (i : Nat)
  | numBound (o : Nat)

/-- the data of the container; an invalid one throws (DataContainer.hpp 73, 84), a valid one without value does not exist -/
def InP.get (p : InP α) : Res α :=
  if p.valid = false then .threw else match p.val with | some x => .data x | none => .ub

/-- a call made by the user -/
def Sys.user (s : Sys α) : Op α → Sys α × Res α
  | .bind o i => s.bind o i
  | .send o x d => if (s.outs o).isEmpty then (s, .threw) else ({ s with stack := .sending x d (s.outs o) :: s.stack }, .done)
  | .cancelIn i => ((s.cancelIn .cancelAll i).1, .num (s.cancelIn .cancelAll i).2)
  | .cancelIfIn i f => ((s.cancelIn (.cancelIf f) i).1, .num (s.cancelIn (.cancelIf f) i).2)
  | .cancelOut o => ((s.cancelOut .cancelAll (s.outs o)).1, .num ((s.cancelOut .cancelAll (s.outs o)).2 % half))
  | .cancelIfOut o f => ((s.cancelOut (.cancelIf f) (s.outs o)).1, .num ((s.cancelOut (.cancelIf f) (s.outs o)).2 % half))
  | .drivenIn i => (s, .yes ((s.ins i).driven .isScheduled))
  | .drivenInAt i rel => (s, .yes ((s.ins i).driven (.isScheduledAt rel)))
  | .drivenOut o => (s, .yes ((s.outs o).any fun i => (s.ins i).driven .isScheduled))
  | .drivenOutAt o rel => (s, .yes ((s.outs o).any fun i => (s.ins i).driven (.isScheduledAt rel)))
  -- DataContainer.hpp 45-47
  | .received i => (s, .yes (s.ins i).valid)
  -- 56-59
  | .receivedNow i => (s, .yes ((s.ins i).valid && decide ((s.ins i).stamp = s.now)))
  -- 69-74
  | .pull i => (if (s.ins i).valid = false then s else s.setIn i { s.ins i with valid := false }, (s.ins i).get)
  -- 81-84
  | .peek i => (s, (s.ins i).get)
  -- 87-89
  | .clear i => (s.setIn i { s.ins i with valid := false }, .done)
  -- 96-99
  | .stamp i => (s, if (s.ins i).valid = false then .threw else .num (s.ins i).stamp)
  -- Port.hpp 222-224
  | .setContOut o b => ({ s with ocont := upd s.ocont o b }, .done)
  -- DataPort.hpp 382-385
  | .setContIn i b => (s.setIn i { s.ins i with cont := b }, .done)
  | .isCont i => (s, .yes (s.ins i).cont)
  | .numBound o => (s, .num (s.outs o).length)
  | _ => (s, .busy)

/-- is `send` running? -/
def sending : List (Frame α) → Bool
  | .sending .. :: _ => true
  | _ => false

def Sys.step (s : Sys α) : Op α → Sys α × Res α
  | .cont => s.cont
  | .ret => s.ret
  | .fire i => if s.stack.isEmpty then s.fire i else (s, .busy)
  | .toPhase k => if s.stack.isEmpty then s.toPhase k else (s, .busy)
  | .pass i => if s.stack.isEmpty then s.pass i else (s, .busy)
  | .next => if s.stack.isEmpty then s.next else (s, .busy)
  | op => if sending s.stack then (s, .busy) else s.user op

end Sparta.DataPort
