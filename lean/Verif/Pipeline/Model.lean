import Verif.Pipe.Model
/-!
Model of `sparta::Pipeline` (/repo/sparta/sparta/resources/Pipeline.hpp), on top of the model of
`sparta::Pipe`.
Not modelled: iterators, collection, `setContinuing`, `setProducerForPipelineUpdate` and its consumer twin,
`setPrecedenceBetweenPipeline`. Stages are below 2^31 as in the model of `Pipe`. All handlers are registered
before the first use of the pipeline (`regd`), the precedence functions are in `Precedence.lean`.
-/
namespace Sparta.Pipeline
open Sparta.Pipe (P)

/-- Pipeline.hpp 1090-1140 members. `pipe` is `pipe_` (never performing its own updates), `regd j` tells
whether `event_list_at_stage_[j]` is not empty, `evOk` is `events_valid_at_stage_`, `adv` is
`advance_into_stage_`, `stall = none` is `stall_stage_id_ == max`, `pending` tells whether
`ev_pipeline_update_` is scheduled for the next cycle. -/
structure PL (α : Type) where
  pipe : P α
  regd : Nat → Bool
  evOk : Nat → Bool
  adv : Nat → Bool
  cycles : Nat
  stall : Option Nat
  own : Bool
  pending : Bool

/-- Pipeline.hpp 216-283 constructors, then `registerHandlerAtStage` (293-343) for the stages in `regd`,
which sets `events_valid_at_stage_`. -/
def PL.init (α : Type) (n : Nat) (regd : Nat → Bool) : Option (PL α) :=
  (P.init α n).map fun p =>
    { pipe := p, regd := regd, evOk := regd, adv := fun _ => true, cycles := 0, stall := none,
      own := false, pending := false }

variable {α : Type}

/-- `if (perform_own_update_) ev_pipeline_update_.schedule()`; the event is unique -/
def PL.sched (m : PL α) : PL α := if m.own then { m with pending := true } else m

/-- Pipeline.hpp 722-724 `isStalledOrStalling` -/
def PL.isStalled (m : PL α) : Bool := m.cycles > 0 || m.stall.isSome

/-- Pipeline.hpp 732-734 `isStalledOrStallingAtStage`; the missing stage number is the largest `uint32_t` -/
def PL.isStalledAt (m : PL α) (k : Nat) : Bool :=
  m.isStalled && (match m.stall with | none => true | some s => k ≤ s)

/-- Pipeline.hpp 940-947 `appendImpl_`; `none` = the call threw -/
def PL.append (m : PL α) (x : α) : Option (PL α) := (m.pipe.append x).map fun q => { m with pipe := q }.sched

/-- Pipeline.hpp 950-957 `writeStageImpl_` -/
def PL.writeStage (m : PL α) (k : Nat) (x : α) : Option (PL α) :=
  (m.pipe.writePS k x).map fun q => { m with pipe := q }.sched

/-- Pipeline.hpp 681-688 `invalidateStage` -/
def PL.invalidateStage (m : PL α) (k : Nat) : Option (PL α) :=
  (m.pipe.invalidatePS k).map fun q => { m with pipe := q }.sched

/-- Pipeline.hpp 589-597 `activateEventAtStage` -/
def PL.activate (m : PL α) (k : Nat) : Option (PL α) :=
  if k < m.pipe.n ∧ m.regd k then some { m with evOk := upd m.evOk k true } else none

/-- Pipeline.hpp 607-615 `deactivateEventAtStage` -/
def PL.deactivate (m : PL α) (k : Nat) : Option (PL α) :=
  if k < m.pipe.n ∧ m.regd k then some { m with evOk := upd m.evOk k false } else none

/-- Pipeline.hpp 1064-1074: the loop of `deactivate_`; the argument is one more than `stage_id` -/
def deactLoop (crush suppress : Bool) (m : PL α) : Nat → PL α
  | 0 => m
  | k + 1 =>
    if crush && !(m.pipe.isValid k == some true) then m
    else deactLoop crush suppress
      { m with
        evOk := if suppress && m.regd k then upd m.evOk k false else m.evOk
        adv := upd m.adv k false } k

/-- Pipeline.hpp 1057-1075 `deactivate_` -/
def PL.deactivateUpTo (m : PL α) (s : Nat) (crush suppress : Bool) : Option (PL α) :=
  if s < m.pipe.n then some (deactLoop crush suppress m (s + 1)) else none

/-- Pipeline.hpp 1078-1088 `restart_`, the loop written pointwise -/
def PL.restart (m : PL α) (s : Nat) : PL α :=
  { m with
    evOk := fun j => if j ≤ s ∧ m.regd j then true else m.evOk j
    adv := fun j => if j ≤ s then true else m.adv j }

/-- Pipeline.hpp 699-714 `stall` -/
def PL.doStall (m : PL α) (s c : Nat) (crush suppress : Bool) : Option (PL α) :=
  match m.pipe.isValid s with
  | some true =>
    if m.isStalled then none
    else if c = 0 then some m
    else { m with cycles := c, stall := some s }.deactivateUpTo s crush suppress
  | _ => none

/-- Pipeline.hpp 754-762 `clearStall` -/
def PL.clearStall (m : PL α) : Option (PL α) :=
  if m.isStalled then
    match m.stall with
    | some s => some { m.restart s with cycles := 0, stall := none }
    | none => none
  else none

/-- Pipeline.hpp 1025-1035 `cancelEventsAtStage_`: the stages whose handlers are cancelled; `none` = threw -/
def PL.cancelAt (m : PL α) (k : Nat) : Option (List Nat) :=
  if k < m.pipe.n then
    if m.pipe.isValid k = some true ∧ m.evOk k then (if m.regd k then some [k] else none) else some []
  else none

/-- Pipeline.hpp 771-783 `flushStage`, with the stages whose handlers were cancelled -/
def PL.flushStage (m : PL α) (k : Nat) : Option (PL α × List Nat) :=
  (m.cancelAt k).bind fun l =>
    let m1 := if m.stall = some k then { m.restart k with cycles := 0, stall := none } else m
    (m1.pipe.flushPS k).map fun q => ({ m1 with pipe := q }, l)

/-- Pipeline.hpp 805-809: the loop of `flushAllStages` over the remaining stages -/
def flushLoop (m : PL α) : List Nat → Option (PL α × List Nat)
  | [] => some (m, [])
  | k :: ks => (m.flushStage k).bind fun r => (flushLoop r.1 ks).map fun t => (t.1, r.2 ++ t.2)

/-- Pipeline.hpp 805-809 `flushAllStages` -/
def PL.flushAllStages (m : PL α) : Option (PL α × List Nat) := flushLoop m (List.range m.pipe.n)

/-- Pipeline.hpp 814-816 `flushAppend` -/
def PL.flushAppend (m : PL α) : PL α := { m with pipe := m.pipe.flushAppend }

/-- Pipeline.hpp 991-995, 1005-1009: move the item of stage `k - 1` (if any) to stage `k` -/
def moveUp (p : P α) (k : Nat) : Option (P α) :=
  match p.isValid (k - 1) with
  | none => none
  | some false => some p
  | some true => (p.read (k - 1)).bind fun x => (p.writePS k x).bind fun q => q.invalidatePS (k - 1)

/-- Pipeline.hpp 990-998: the stages after the stall; the result also gives the value of `stage_id` -/
def advLoop (start : Nat) (p : P α) : Nat → Option (P α × Nat)
  | 0 => some (p, 0)
  | k + 1 =>
    if k + 1 > start then (moveUp p (k + 1)).bind fun q => advLoop start q k
    else some (p, k + 1)

/-- Pipeline.hpp 1005-1013: the stages up to the stall, moving into bubbles -/
def bubbleLoop (adv : Nat → Bool) (p : P α) : Nat → Option (P α)
  | 0 => some p
  | k + 1 =>
    (if adv k && p.isValid (k + 1) == some false && p.isValid k == some true then moveUp p (k + 1)
     else some p).bind fun q => bubbleLoop adv q k

/-- Pipeline.hpp 982-1018 `drain_` -/
def PL.drain (m : PL α) (start : Nat) : Option (P α) :=
  let last := m.pipe.n - 1
  (if start ≤ last ∧ m.pipe.isValid last = some true then m.pipe.invalidatePS last else some m.pipe).bind fun p1 =>
  (advLoop start p1 last).bind fun r =>
  (bubbleLoop m.adv r.1 r.2).bind fun p2 =>
  p2.shiftAppend.map (·.1)

/-- Pipeline.hpp 1038-1054: the loop of `scheduleEventForEachStage_` over the remaining stages: the stages
whose handlers are scheduled for this cycle, with the data handed to payload handlers; `none` = assertion -/
def schedLoop (m : PL α) : List Nat → Option (List (Nat × α))
  | [] => some []
  | k :: ks =>
    if m.pipe.isValid k = some true ∧ m.evOk k then
      if m.regd k then (m.pipe.read k).bind fun x => (schedLoop m ks).map fun l => (k, x) :: l else none
    else schedLoop m ks

/-- Pipeline.hpp 1038-1054 `scheduleEventForEachStage_` -/
def PL.scheduleEvents (m : PL α) : Option (List (Nat × α)) := schedLoop m (List.range m.pipe.n)

/-- Pipeline.hpp 970-974: `--stall_cycles_` and the end of the stall -/
def PL.countDown (m : PL α) (s : Nat) : PL α :=
  if m.cycles - 1 = 0 then { m.restart s with cycles := 0, stall := none }
  else { m with cycles := m.cycles - 1 }

/-- Pipeline.hpp 977-979: schedule the next update -/
def PL.resched (m : PL α) : PL α := if m.pipe.isAnyValid then m.sched else m

/-- Pipeline.hpp 960-980 `internalUpdate_`, with the scheduled stage handlers -/
def PL.internalUpdate (m : PL α) : Option (PL α × List (Nat × α)) :=
  if m.isStalled then
    match m.stall with
    | none => none
    | some s =>
      (m.drain (s + 1)).bind fun q =>
      let m1 := { m with pipe := q }
      m1.scheduleEvents.map fun l => ((m1.countDown s).resched, l)
  else
    (m.pipe.update).bind fun q =>
      let m1 := { m with pipe := q }
      m1.scheduleEvents.map fun l => (m1.resched, l)

/-- Pipeline.hpp 893-902 `performOwnUpdates` -/
def PL.performOwnUpdates (m : PL α) : PL α :=
  if m.own then m else ({ m with own := true }).resched

/-- Pipeline.hpp 914-919 `update` -/
def PL.update (m : PL α) : Option (PL α × List (Nat × α)) := if m.own then none else m.internalUpdate

/-- One cycle boundary of a pipeline performing its own updates: the scheduler fires `ev_pipeline_update_`
if it was scheduled (Scheduler semantics: exactly once, one cycle after `schedule()`). -/
def PL.cycle (m : PL α) : Option (PL α × List (Nat × α)) :=
  if m.pending then { m with pending := false }.internalUpdate else some (m, [])

/-- Pipeline.hpp 649-652 `readAppendedData`, Pipe.hpp 473-479; `none` = assertion -/
def PL.readAppended (m : PL α) : Option α := m.pipe.mem m.pipe.physNeg1

/-- Public operations -/
inductive Op (α : Type) where
  | append (x : α)
  | writeStage (k : Nat) (x : α)
  | invalidateStage (k : Nat)
  | activate (k : Nat)
  | deactivate (k : Nat)
  | stall (k cycles : Nat) (crush suppress : Bool)
  | clearStall
  | flushStage (k : Nat)
  | flushAllStages
  | flushAppend
  | performOwnUpdates
  | update
  | isValid (k : Nat)
  | read (k : Nat)
  | readAppended
  | isAppended
  | numValid
  | isAnyValid
  | isStalled
  | isStalledAt (k : Nat)

/-- What the caller sees: an exception, normal completion, the handlers cancelled by a flush, the handlers
scheduled by an update, or a value. -/
inductive Res (α : Type) where
  | threw
  | ok
  | cancelled (l : List Nat)
  | sched (l : List (Nat × α))
  | bool (b : Bool)
  | nat (k : Nat)
  | data (x : α)
deriving DecidableEq

/-- a call without result -/
def void (m : PL α) : Option (PL α) → PL α × Res α
  | some q => (q, .ok)
  | none => (m, .threw)

/-- a flush -/
def flushed (m : PL α) : Option (PL α × List Nat) → PL α × Res α
  | some q => (q.1, .cancelled q.2)
  | none => (m, .threw)

/-- an update -/
def updated (m : PL α) : Option (PL α × List (Nat × α)) → PL α × Res α
  | some q => (q.1, .sched q.2)
  | none => (m, .threw)

/-- One API call (Pipeline.hpp, see the functions above; `isValid`, `at`, `isAppended`, `numValid`,
`isAnyValid` at 826-866). For `update` with own updates enabled this is the cycle boundary driven by the
scheduler. A call that throws leaves the state as it was (all assertions that can fail precede any
change). -/
def PL.step (m : PL α) : Op α → PL α × Res α
  | .append x => void m (m.append x)
  | .writeStage k x => void m (m.writeStage k x)
  | .invalidateStage k => void m (m.invalidateStage k)
  | .activate k => void m (m.activate k)
  | .deactivate k => void m (m.deactivate k)
  | .stall k c crush suppress => void m (m.doStall k c crush suppress)
  | .clearStall => void m m.clearStall
  | .flushStage k => flushed m (m.flushStage k)
  | .flushAllStages => flushed m m.flushAllStages
  | .flushAppend => (m.flushAppend, .ok)
  | .performOwnUpdates => (m.performOwnUpdates, .ok)
  | .update => updated m (if m.own then m.cycle else m.update)
  | .isValid k => (m, match m.pipe.isValid k with | some b => .bool b | none => .threw)
  | .read k => (m, match m.pipe.read k with | some x => .data x | none => .threw)
  | .readAppended => (m, match m.readAppended with | some x => .data x | none => .threw)
  | .isAppended => (m, .bool m.pipe.isAppended)
  | .numValid => (m, .nat m.pipe.numValid)
  | .isAnyValid => (m, .bool m.pipe.isAnyValid)
  | .isStalled => (m, .bool m.isStalled)
  | .isStalledAt k => (m, .bool (m.isStalledAt k))

end Sparta.Pipeline
