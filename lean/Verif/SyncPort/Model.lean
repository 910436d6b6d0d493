import Verif.Common
/-!
Model of a `SyncOutPort` bound to a `SyncInPort` (/repo/sparta/sparta/ports/SyncPort.hpp).

Simplifications: ticks and cycles are natural numbers (no 64-bit overflow; `Props` relates the clock-crossing functions below to the 64-bit ones of
`Verif.Clock`); send delays pass through `double` (SyncPort.hpp 908-914) and are exact below 2^53; the clocks are given by ratios, so both frequencies
are 0.0 and the comparison in line 874 succeeds; one output port per input port; the payload event (its behaviour is `Verif.PayloadEvent`) is a list of
scheduled pairs (tick, data). Loggers, collectors, precedence and `kickTheDog` are not modelled.
-/
namespace Sparta.SyncPort

/-- the periods of the sender's and the receiver's clock in ticks, `receive_delay_ticks_` (any number, since the delay may be given in fractional cycles) and
the state given to `setInitialReadyState` (default true) -/
structure Cfg where
  S : Nat
  D : Nat
  R : Nat
  ready0 : Bool

/-- Clock.hpp 371-415 `calculateClockCrossingDelay` at tick `now` -/
def cross (now srcDelay S dstDelay D : Nat) : Option Nat :=
  if now / S * S ≠ now then none
  else
    let num := srcDelay + dstDelay
    let raw := now + num
    let edge := raw / D * D
    if raw ≠ edge then some (num + (D - (raw - edge))) else some num

/-- Clock.hpp 430-468 `calculateReverseClockCrossingDelay`; `none` = assertion. The subtraction in line 455 wraps in the code when the delays exceed the arrival
tick; here that is `none` too -/
def reverse (arr srcDelay S dstDelay D : Nat) : Option Nat :=
  if arr / D * D ≠ arr then none
  else
    let rel := srcDelay + dstDelay
    if arr < rel then none
    else
      let sent := arr - rel
      let edge := sent / S * S
      if sent ≠ edge then some (rel + (sent - edge)) else some rel

/-- The state: the scheduler's tick and whether it is past the port's delivery in this tick (its phase or precedence group), `prev_data_arrival_tick_` (INIT = none),
`cur_is_ready_`, `prev_is_ready_`, `set_ready_tick_`, `num_in_flight_`, the scheduled deliveries, `prev_data_send_cycle_` (INIT = none)
(SyncPort.hpp 394-395, 1042-1061) -/
structure Port (α : Type) where
  now : Nat
  late : Bool
  prevArrival : Option Nat
  cur : Bool
  prev : Bool
  setTick : Nat
  inFlight : Nat
  pending : List (Nat × α)
  prevSend : Option Nat
deriving DecidableEq

/-- SyncPort.hpp 394-395, 1042-1061 and 601-606 `setInitialReadyState` -/
def Port.init (α : Type) (c : Cfg) : Port α := ⟨0, false, none, c.ready0, c.ready0, 0, 0, [], none⟩

inductive Op (α : Type) where
  | send (x : α) (delay : Nat) (slide : Bool)
  | isReady
  | isReadyPS
  | isDriven (rel : Nat)
  | isDrivenIn
  | nextAvailable (delay beats : Nat)
  | setReady (b : Bool)
  | getReady
  /-- the scheduler fires the port's event -/
  | deliver
  /-- the scheduler moves beyond the delivery within the tick -/
  | pass
  /-- the scheduler moves to the next tick -/
  | next
deriving DecidableEq

inductive Res (α : Type) where
  /-- the exception thrown by an assertion -/
  | threw
  | delay (ticks : Nat)
  | yes (b : Bool)
  | cycle (n : Nat)
  /-- the consumer's handler received the data -/
  | got (x : α)
  /-- the data was sent again to the port itself -/
  | held
  | done
  /-- the scheduler cannot do this now -/
  | no
deriving DecidableEq

variable {α : Type}

/-- SyncPort.hpp 752-760 `getLatchedReady_` -/
def Port.latched (s : Port α) : Bool :=
  if (s.setTick = s.now ∧ s.prev = false) ∨ (s.setTick < s.now ∧ s.cur = false) then false else true

/-- SyncPort.hpp 908-934 `computeSendToReceiveTickDelay_` from a clock with period `P` (with the positive-edge check in line 931) -/
def toReceive (c : Cfg) (now P delay : Nat) (slide : Bool) (prevArrival : Option Nat) : Option Nat :=
  (cross now (delay * P) P c.R c.D).bind fun num =>
    let abs := num + now
    let abs := match prevArrival with
      | some p => if slide = true ∧ abs ≤ p then p + c.D else abs
      | none => abs
    if abs % c.D ≠ 0 then none else some (abs - now)

/-- the comparison with `prev_data_arrival_tick_` in lines 514-516, 867, 1011 -/
def Port.later (s : Port α) (abs : Nat) : Bool :=
  match s.prevArrival with
  | some p => decide (p < abs)
  | none => true

/-- SyncPort.hpp 991-1031 `send_` from a clock with period `P`; the state is returned also when it throws: `prev_data_arrival_tick_` (1018) is set before the check in 1021 and the
scheduler's own check (1023) -/
def Port.sendIn (s : Port α) (c : Cfg) (x : α) (P delay : Nat) (slide : Bool) : Port α × Option Nat :=
  match toReceive c s.now P delay slide s.prevArrival with
  | none => (s, none)
  | some num =>
    let abs := num + s.now
    if abs % c.D ≠ 0 then (s, none)
    else if s.later abs = false then (s, none)
    else if num = 0 ∧ s.late = true then ({ s with prevArrival := some abs }, none)
    else ({ s with prevArrival := some abs, pending := s.pending ++ [(abs, x)], inFlight := s.inFlight + 1 }, some num)

/-- SyncPort.hpp 344-351: the loop of `computeNextAvailableCycleForSend` from beat `beat`, `n` times -/
def beats (c : Cfg) (now delay : Nat) : Nat → Nat → Option Nat → Option (Option Nat)
  | _, 0, p => some p
  | beat, n + 1, p => (toReceive c now c.S (delay + beat) true p).bind fun num => beats c now delay (beat + 1) n (some (now + num))

/-- SyncPort.hpp 330-367 `computeNextAvailableCycleForSend` with `computeReverseSendToReceiveTickDelay_` (945-961) -/
def Port.nextAvailable (s : Port α) (c : Cfg) (delay n : Nat) : Option Nat :=
  if s.now % c.S ≠ 0 then none
  else
    (beats c s.now delay 0 (n + 1) s.prevArrival).bind fun p =>
    p.bind fun arr =>
    (reverse arr (delay * c.S) c.S c.R c.D).bind fun back =>
      if arr < back then none
      else
        let cyc := (arr - back) / c.S + delay
        if cyc < s.now / c.S then none else some cyc

/-- SyncPort.hpp 290-318 `send`; the check against `prev_data_send_cycle_` (310) comes after the data has been sent (303) -/
def Port.send (s : Port α) (c : Cfg) (x : α) (delay : Nat) (slide : Bool) : Port α × Res α :=
  if s.now % c.S ≠ 0 then (s, .threw)
  else
    match s.nextAvailable c delay 0 with
    | none => (s, .threw)
    | some cyc =>
      match s.sendIn c x c.S delay slide with
      | (s', none) => (s', .threw)
      | (s', some num) =>
        match s'.prevSend with
        | none => ({ s' with prevSend := some cyc }, .delay num)
        | some p => if p < cyc then ({ s' with prevSend := some cyc }, .delay num) else (s', .threw)

/-- `getPortDelay` (SyncPort.hpp 545): the cycles set in line 559 or 582 -/
def Cfg.portDelay (c : Cfg) : Nat := (c.R + (c.D - 1)) / c.D

/-- SyncPort.hpp 856-887 `couldAccept_`; note the first argument of the clock-crossing function in line 859 -/
def Port.couldAccept (s : Port α) (c : Cfg) : Option Bool :=
  (cross s.now s.now c.S c.R c.D).bind fun num =>
    let retval := s.later (num + s.now)
    if s.latched = false then
      if c.portDelay = 1 ∨ c.portDelay = 0 then
        some (if s.inFlight > 0 ∨ c.portDelay = 0 then false else retval)
      else none
    else some retval

/-- SyncPort.hpp 507-519 (and 527-539 with `rel` = 0) `isDriven` as called by `SyncOutPort::isDriven` (206-226) -/
def Port.isDriven (s : Port α) (c : Cfg) (rel : Nat) : Option Bool :=
  (toReceive c s.now c.S rel false s.prevArrival).map fun num => !(s.later (num + s.now))

/-- SyncPort.hpp 621-639 `setReady` -/
def Port.setReady (s : Port α) (b : Bool) : Port α × Res α :=
  if s.now > s.setTick then ({ s with setTick := s.now, prev := s.cur, cur := b }, .done)
  else if s.now = s.setTick ∧ b = s.cur then (s, .done)
  else (s, .threw)

/-- the first scheduled delivery of tick `t` and the others -/
def takeDue (t : Nat) : List (Nat × α) → Option (α × List (Nat × α))
  | [] => none
  | (u, x) :: l => if u = t then some (x, l) else (takeDue t l).map fun (y, l') => (y, (u, x) :: l')

/-- SyncPort.hpp 778-824 `forwardData_`, called by the payload event (Verif.PayloadEvent) when due -/
def Port.deliver (s : Port α) (c : Cfg) : Port α × Res α :=
  match takeDue s.now s.pending with
  | none => (s, .no)
  | some (x, rest) =>
    if s.late = true then (s, .no)
    else if s.setTick ≤ s.now then
      if s.inFlight > 0 then
        let s := { s with pending := rest, inFlight := s.inFlight - 1 }
        if s.latched = false then
          match s.sendIn c x c.D 1 false with
          | (s', none) => (s', .threw)
          | (s', some _) => if s'.inFlight > 0 then (s', .held) else (s', .threw)
        else (s, .got x)
      else ({ s with pending := rest }, .threw)
    else ({ s with pending := rest }, .threw)

/-- all calls: `isReady` 182-185, `isReadyPS` 192-195 with `getRawReady_` 765-769, `isDriven()` of the input port 493-495 (outside the consumer's handler, while which runs the
payload event still counts the payload), `getReady` 644-646; `pass` and `next` stand for the scheduler, which does not move on while a delivery of the tick is outstanding -/
def Port.step (c : Cfg) (s : Port α) : Op α → Port α × Res α
  | .send x d sl => s.send c x d sl
  | .isReady => (s, match s.couldAccept c with | some b => .yes b | none => .threw)
  | .isReadyPS => (s, if c.portDelay = 0 then .yes s.cur else .threw)
  | .isDriven rel => (s, match s.isDriven c rel with | some b => .yes b | none => .threw)
  | .isDrivenIn => (s, .yes !s.pending.isEmpty)
  | .nextAvailable d n => (s, match s.nextAvailable c d n with | some k => .cycle k | none => .threw)
  | .setReady b => s.setReady b
  | .getReady => (s, .yes s.cur)
  | .deliver => s.deliver c
  | .pass => if (takeDue s.now s.pending).isSome then (s, .no) else ({ s with late := true }, .done)
  | .next => if (takeDue s.now s.pending).isSome then (s, .no) else ({ s with now := s.now + 1, late := false }, .done)

end Sparta.SyncPort
