import Verif.Common
/-!
Model of `sparta::Pipe` (/repo/sparta/sparta/resources/Pipe.hpp).
Not modelled: collection, iterators, `resize` (only legal before use).
Stage arguments are `uint32_t`; the model takes them below 2^31 (so the conversion to `int32_t` in
`getPhysicalStage_` keeps the value); stage -1 appears only where the code itself uses it.
-/
namespace Sparta.Pipe

/-- Pipe.hpp 527-532 members. A `ValidValue` slot is `Option α`. `numValid` is `uint32_t`.
`ownUpdates` is `perform_own_updates_`, `pending` tells whether `ev_update_` (a UniqueEvent with delay 1)
is scheduled for the next cycle. -/
structure P (α : Type) where
  n : Nat
  phys : Nat
  mem : Nat → Option α
  numValid : Nat
  tail : Nat
  ownUpdates : Bool
  pending : Bool

/-- `pow2(ceil_log2(x))` for x > 0, see C30: the least power of two at least `x` -/
def roundUp (x : Nat) : Nat := if x < 2 then 1 else 2 ^ (Nat.log2 (x - 1) + 1)

/-- Pipe.hpp 60-68 `initPipe_`, 202-214 constructor; zero stages are rejected. -/
def P.init (α : Type) (n : Nat) : Option (P α) :=
  if n > 0 then
    some { n := n, phys := roundUp (n + 1), mem := fun _ => none, numValid := 0, tail := 0,
           ownUpdates := false, pending := false }
  else none

variable {α : Type}

/-- Pipe.hpp 54-58 `getPhysicalStage_` for a stage number ≥ 0; `none` = assertion -/
def P.physStage (p : P α) (stage : Nat) : Option Nat :=
  if stage < p.n then some ((p.tail + stage) % 2 ^ 32 &&& (p.phys - 1)) else none

/-- Pipe.hpp 54-58 `getPhysicalStage_(-1)`; the sum is computed in `uint32_t` -/
def P.physNeg1 (p : P α) : Nat := u32dec p.tail &&& (p.phys - 1)

/-- `--num_valid_` on a `uint32_t` -/
def P.decValid (p : P α) : P α := { p with numValid := u32dec p.numValid }
/-- `++num_valid_` on a `uint32_t` -/
def P.incValid (p : P α) : P α := { p with numValid := u32inc p.numValid }

/-- `if(perform_own_updates_) ev_update_.schedule()`; the event is unique, so a second schedule is ignored -/
def P.sched (p : P α) : P α := if p.ownUpdates then { p with pending := true } else p

/-- `if(pe.data.isValid()) --num_valid_;` for slot `i` -/
def P.dropCount (p : P α) (i : Nat) : P α := if (p.mem i).isSome then p.decValid else p

/-- Pipe.hpp 568-578 `appendImpl_` -/
def P.append (p : P α) (x : α) : Option (P α) :=
  if (p.mem p.physNeg1).isSome then none
  else some ({ p with mem := upd p.mem p.physNeg1 (some x) }).sched

/-- Pipe.hpp 580-592 `writePSImpl_` -/
def P.writePS (p : P α) (stage : Nat) (x : α) : Option (P α) :=
  (p.physStage stage).map fun i =>
    let p := p.dropCount i
    ({ p with mem := upd p.mem i (some x) }).incValid.sched

/-- Pipe.hpp 318-331 `invalidatePS` -/
def P.invalidatePS (p : P α) (stage : Nat) : Option (P α) :=
  (p.physStage stage).bind fun i =>
    if (p.mem i).isSome then
      let p := p.dropCount i
      some ({ p with mem := upd p.mem i none }).sched
    else none

/-- Pipe.hpp 336-339 `clear` -/
def P.clear (p : P α) : P α := { p with mem := fun _ => none, numValid := 0 }

/-- Pipe.hpp 348-356 `flushPS` -/
def P.flushPS (p : P α) (stage : Nat) : Option (P α) :=
  (p.physStage stage).map fun i =>
    let p := p.dropCount i
    { p with mem := upd p.mem i none }

/-- Pipe.hpp 359-363 `flushAppend` -/
def P.flushAppend (p : P α) : P α := { p with mem := upd p.mem p.physNeg1 none }

/-- the physical slots of stages -1, 0, ..., n-1 in loop order (Pipe.hpp 368, 384, 407) -/
def P.slots (p : P α) : List Nat :=
  p.physNeg1 :: (List.range p.n).map (fun i => (p.tail + i) % 2 ^ 32 &&& (p.phys - 1))

/-- Pipe.hpp 366-373 `flushAll` -/
def P.flushAll (p : P α) : P α :=
  { p with mem := p.slots.foldl (fun m i => upd m i none) p.mem, numValid := 0 }

/-- Pipe.hpp 383-395 and 406-418: one iteration of `flushIf` -/
def P.flushIfSlot (f : α → Bool) (p : P α) (i : Nat) : P α :=
  match p.mem i with
  | some x => if f x then { p.decValid with mem := upd p.mem i none } else p
  | none => p

/-- Pipe.hpp 383-418 `flushIf` (both overloads; the criteria overload compares with `==`) -/
def P.flushIf (p : P α) (f : α → Bool) : P α := p.slots.foldl (P.flushIfSlot f) p

/-- Pipe.hpp 548-553: count down if valid, then clear the slot -/
def P.clearSlot (p : P α) (i : Nat) : P α := { p.dropCount i with mem := upd p.mem i none }
/-- Pipe.hpp 556 `tail_ = getPhysicalStage_(-1)` -/
def P.advance (p : P α) : P α := { p with tail := p.physNeg1 }
/-- Pipe.hpp 559-562 -/
def P.countTail (p : P α) : P α := if (p.mem p.tail).isSome then p.incValid else p
/-- Pipe.hpp 563-565 -/
def P.resched (p : P α) : P α := if p.numValid > 0 then p.sched else p

/-- Pipe.hpp 547-566 `internalUpdate_` -/
def P.internalUpdate (p : P α) : Option (P α) :=
  (p.physStage (p.n - 1)).map fun head => (p.clearSlot head).advance.countTail.resched

/-- Pipe.hpp 482-486 `update` -/
def P.update (p : P α) : Option (P α) := if p.ownUpdates then none else p.internalUpdate

/-- Pipe.hpp 490-503 `shiftAppend` -/
def P.shiftAppend (p : P α) : Option (P α × Bool) :=
  match p.mem p.physNeg1 with
  | none => some (p, false)
  | some x => (p.physStage 0).bind fun z =>
    if (p.mem z).isSome then some (p, false)
    else (p.writePS 0 x).map fun q => ({ q with mem := upd q.mem p.physNeg1 none }, true)

/-- Pipe.hpp 428-432 `isValid`; `none` = assertion -/
def P.isValid (p : P α) (stage : Nat) : Option Bool := (p.physStage stage).map fun i => (p.mem i).isSome

/-- Pipe.hpp 448-463 `read` / `access`; `none` = assertion -/
def P.read (p : P α) (stage : Nat) : Option α := (p.physStage stage).bind p.mem

/-- Pipe.hpp 272-276 `isAppended` -/
def P.isAppended (p : P α) : Bool := (p.mem p.physNeg1).isSome

/-- Pipe.hpp 435-438 `isAnyValid` -/
def P.isAnyValid (p : P α) : Bool := p.numValid > 0 || (p.mem p.physNeg1).isSome

/-- Pipe.hpp 230-235 `performOwnUpdates` -/
def P.performOwnUpdates (p : P α) : P α :=
  if ¬ p.ownUpdates ∧ p.isAnyValid then { p with pending := true, ownUpdates := true }
  else { p with ownUpdates := true }

/-- One cycle boundary of a pipe performing its own updates: the scheduler fires `ev_update_` if it was
scheduled (Scheduler semantics: exactly once, one cycle after `schedule()`). -/
def P.cycle (p : P α) : Option (P α) :=
  if p.pending then { p with pending := false }.internalUpdate else some p

/-- Public operations -/
inductive Op (α : Type) where
  | append (x : α)
  | writePS (stage : Nat) (x : α)
  | invalidatePS (stage : Nat)
  | flushPS (stage : Nat)
  | flushAppend
  | flushAll
  | flushIf (f : α → Bool)
  | clear
  | shiftAppend
  | update

/-- One API call; `false` = it threw (all assertions precede any change), and for shiftAppend the returned
value. For `update` with own updates enabled this is the cycle boundary driven by the scheduler. -/
def P.step (p : P α) : Op α → P α × Bool
  | .append x => match p.append x with | some q => (q, true) | none => (p, false)
  | .writePS k x => match p.writePS k x with | some q => (q, true) | none => (p, false)
  | .invalidatePS k => match p.invalidatePS k with | some q => (q, true) | none => (p, false)
  | .flushPS k => match p.flushPS k with | some q => (q, true) | none => (p, false)
  | .flushAppend => (p.flushAppend, true)
  | .flushAll => (p.flushAll, true)
  | .flushIf f => (p.flushIf f, true)
  | .clear => (p.clear, true)
  | .shiftAppend => match p.shiftAppend with | some q => q | none => (p, false)
  | .update =>
    match (if p.ownUpdates then p.cycle else p.update) with | some q => (q, true) | none => (p, false)

end Sparta.Pipe
