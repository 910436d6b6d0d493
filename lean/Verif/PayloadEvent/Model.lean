import Verif.Common
/-!
Model of `sparta::PhasedPayloadEvent` (/repo/sparta/sparta/events/PhasedPayloadEvent.hpp; `PayloadEvent` adds only the
phase), of `ScheduleableHandle` (/repo/sparta/sparta/events/Scheduleable.hpp 529-621) and of the part of the
scheduler (/repo/sparta/src/Scheduler.cpp) they use.

One event: its proxies are all in the same firing group, so of the scheduler only the entries of that group are
kept, for every tick. The user's handler is not a function here: `fire` starts it, the calls that follow are made
by it (or by code it calls), `ret` ends it; so a history covers every handler. One tick is one cycle. `pass` is the
scheduler going on to a later group of the same tick, `next` is the next tick.
Not modelled: proxies created before the scheduler is finalized (they keep group 0), `setContinuing`, clocks,
handlers that throw, the destructor of the event, counts of handles above 2^32.
-/
namespace Sparta.PayloadEvent

/-- PhasedPayloadEvent.hpp 140-146 and Scheduleable.hpp 490; `inflight` is `loc_ != inflight_pl_.end()`, `payload` is
`none` when no object lives in `payload_storage_` -/
structure Proxy (α : Type) where
  payload : Option α
  inflight : Bool
  scheduled : Bool
  cancelled : Bool
  refs : Nat

/-- PhasedPayloadEvent.hpp 617-632. `free` is `free_pl_[0 .. free_idx_)`, last first. `cap` is `inflight_pl_.max_size()`.
`px` gives the proxies by their index in `allocated_proxies_`; proxies not yet allocated are in their initial state (612).
`hs k` is the proxy the `k`-th handle returned by `preparePayload` points to. `visited` and `todo now` together are the entries
of the group at the current tick, those the scheduler has already visited and the others (`none` = the no-op
`cancelled_event_`); `todo t` are the entries for tick `t`. `firing` is the proxy whose handler is running. -/
structure PE (α : Type) where
  cap : Nat
  px : Nat → Proxy α
  free : List Nat
  allocIdx : Nat
  inflight : List Nat
  nh : Nat
  hs : Nat → Nat
  now : Nat
  past : Bool
  visited : List (Option Nat)
  todo : Nat → List (Option Nat)
  firing : Option Nat

variable {α : Type}

def Proxy.fresh : Proxy α := ⟨none, false, false, false, 0⟩

def PE.init (α : Type) (cap : Nat) : PE α :=
  ⟨cap, fun _ => .fresh, [], 0, [], 0, fun _ => 0, 0, false, [], fun _ => [], none⟩

def PE.setPx (s : PE α) (p : Nat) (x : Proxy α) : PE α := { s with px := upd s.px p x }

/-- PhasedPayloadEvent.hpp 184-192 `reclaimProxy_` with 111-114 `destroyPayload_` -/
def PE.reclaimProxy (s : PE α) (p : Nat) : PE α :=
  if (s.px p).inflight = false then s
  else { s.setPx p { s.px p with payload := none, inflight := false } with free := p :: s.free, inflight := s.inflight.erase p }

/-- PhasedPayloadEvent.hpp 89-94 `reclaim_` -/
def PE.reclaim (s : PE α) (p : Nat) : PE α :=
  if (s.px p).scheduled = false ∧ (s.px p).refs = 0 then
    let s' := s.reclaimProxy p
    s'.setPx p { s'.px p with cancelled := false }
  else s

/-- PhasedPayloadEvent.hpp 98-102 `eventCancelled_` -/
def PE.eventCancelled (s : PE α) (p : Nat) : PE α :=
  (s.setPx p { s.px p with scheduled := false, cancelled := true }).reclaim p

/-- replace the entries of proxy `p` by the no-op event (Scheduler.cpp 745-748, 779-782) -/
def drop (p : Nat) (l : List (Option Nat)) : List (Option Nat) := l.map fun e => if e = some p then none else e

/-- Scheduleable.hpp 327-330 `cancel()` with Scheduler.cpp 732-760 -/
def PE.cancel (s : PE α) (p : Nat) : PE α :=
  { s with visited := drop p s.visited, todo := fun t => drop p (s.todo t) }.eventCancelled p

/-- the entries of the group at tick `t` that the scheduler still stores -/
def PE.entries (s : PE α) (t : Nat) : List (Option Nat) := if t = s.now then s.visited ++ s.todo t else s.todo t

/-- one call of `eventCancelled_` for each entry found (Scheduler.cpp 779-783) -/
def PE.cancelFound (s : PE α) (p : Nat) : List (Option Nat) → PE α
  | [] => s
  | e :: es => (if e = some p then s.eventCancelled p else s).cancelFound p es

/-- Scheduleable.hpp 339-346 `cancel(rel_cycle)` with Scheduler.cpp 762-797 -/
def PE.cancelAt (s : PE α) (p rel : Nat) : PE α :=
  let t := s.now + rel
  let s' := s.cancelFound p (s.entries t)
  { s' with visited := if rel = 0 then drop p s'.visited else s'.visited, todo := upd s'.todo t (drop p (s'.todo t)) }

inductive Res (α : Type) where
  | threw
  /-- undefined behaviour: an object that does not live is read -/
  | ub
  | done
  | handle (k : Nat)
  | num (n : Nat)
  | yes (b : Bool)
  | payload (x : α)
  | idle
deriving DecidableEq

/-- PhasedPayloadEvent.hpp 151-177 `allocateProxy_` with 606-616 `addProxies_` and the returned handle (Scheduleable.hpp 567-571) -/
def PE.prepare (s : PE α) (x : α) : PE α × Res α :=
  match s.free with
  | p :: rest =>
    ({ s with free := rest, inflight := s.inflight ++ [p], px := upd s.px p { s.px p with payload := some x, inflight := true, refs := (s.px p).refs + 1 },
              nh := s.nh + 1, hs := upd s.hs s.nh p }, .handle s.nh)
  | [] =>
    let p := s.allocIdx
    if p + 1 < s.cap then
      ({ s with allocIdx := p + 1, inflight := s.inflight ++ [p], px := upd s.px p { s.px p with payload := some x, inflight := true, refs := (s.px p).refs + 1 },
                nh := s.nh + 1, hs := upd s.hs s.nh p }, .handle s.nh)
    else ({ s with allocIdx := p + 1 }, .threw)

/-- Scheduleable.hpp 540-544 `connect_` -/
def PE.connect (s : PE α) (p : Nat) : PE α := s.setPx p { s.px p with refs := (s.px p).refs + 1 }

/-- Scheduleable.hpp 533-537 `disconnect_` -/
def PE.disconnect (s : PE α) (p : Nat) : PE α :=
  let s' := s.setPx p { s.px p with refs := u32dec (s.px p).refs }
  if (s'.px p).refs = 0 then s'.reclaim p else s'

/-- PhasedPayloadEvent.hpp 55-63 `scheduleRelativeTick` and Scheduler.cpp 353-402: a zero delay is refused when the group is over -/
def PE.schedule (s : PE α) (p d : Nat) : PE α × Res α :=
  if (s.px p).cancelled = true ∨ (s.px p).scheduled = true then (s, .threw)
  else if d = 0 ∧ s.past = true then (s, .threw)
  else ({ s.setPx p { s.px p with scheduled := true } with todo := upd s.todo (s.now + d) (s.todo (s.now + d) ++ [some p]) }, .done)

/-- the first entry that is not the no-op event, and what follows it -/
def nextEntry : List (Option Nat) → Option (Nat × List (Option Nat))
  | [] => none
  | none :: l => nextEntry l
  | some p :: l => some (p, l)

/-- the scheduler fires the next entry of the group; PhasedPayloadEvent.hpp 130-138 `deliverPayload_` up to the call of the handler -/
def PE.fire (s : PE α) : PE α × Res α :=
  if s.firing.isSome then (s, .threw)
  else match nextEntry (s.todo s.now) with
    | none => (s, .idle)
    | some (p, l) =>
      let s' := { s with visited := s.visited ++ (s.todo s.now).take ((s.todo s.now).length - l.length), todo := upd s.todo s.now l }
      if (s.px p).scheduled = false then (s', .threw)
      else
        match (s.px p).payload with
        | none => (s', .ub)
        | some x => ({ s'.setPx p { s.px p with scheduled := false } with firing := some p }, .payload x)

/-- the handler returns; PhasedPayloadEvent.hpp 145 -/
def PE.ret (s : PE α) : PE α × Res α :=
  match s.firing with
  | none => (s, .threw)
  | some p => ({ s with firing := none }.reclaim p, .done)

/-- no handler is running and all entries of the group are visited -/
def PE.over (s : PE α) : Bool := s.firing.isNone && (s.todo s.now).all (·.isNone)

def PE.pass (s : PE α) : PE α × Res α := if s.over then ({ s with past := true }, .done) else (s, .threw)

def PE.next (s : PE α) : PE α × Res α :=
  if s.over then ({ s with now := s.now + 1, past := false, visited := [] }, .done) else (s, .threw)

/-- does the payload stored in proxy `p` satisfy `f`? -/
def PE.sat (s : PE α) (f : α → Bool) (p : Nat) : Bool :=
  match (s.px p).payload with
  | some x => f x
  | none => false

/-- PhasedPayloadEvent.hpp 315-327 `cancel()`: the loop -/
def PE.cancelAll (s : PE α) : List Nat → PE α
  | [] => s
  | p :: ps => (s.cancel p).cancelAll ps

/-- PhasedPayloadEvent.hpp 336-347 `cancel(rel_cycle)`: the loop -/
def PE.cancelAllAt (s : PE α) (rel : Nat) : List Nat → PE α
  | [] => s
  | p :: ps => (s.cancelAt p rel).cancelAllAt rel ps

/-- PhasedPayloadEvent.hpp 358-374 and 451-465 `cancelIf`: the loop -/
def PE.cancelIf (s : PE α) (f : α → Bool) : List Nat → PE α × Nat
  | [] => (s, 0)
  | p :: ps =>
    if s.sat f p then
      let (s', n) := (s.cancel p).cancelIf f ps
      (s', n + 1)
    else s.cancelIf f ps

inductive Op (α : Type) where
  | prepare (x : α)
  /-- a copy of a handle is made (Scheduleable.hpp 554-559) -/
  | copy (k : Nat)
  /-- a handle is destroyed (589-592) -/
  | drop (k : Nat)
  /-- a handle is moved to a new one (551, defaulted) and destroyed -/
  | move (k : Nat)
  /-- a handle is assigned to itself (612-617) -/
  | selfAssign (k : Nat)
  | schedule (k d : Nat)
  | cancelH (k : Nat)
  | cancelHAt (k rel : Nat)
  | cancelAll
  | cancelAt (rel : Nat)
  | cancelIf (f : α → Bool)
  | confirmIf (f : α → Bool)
  | count
  | isScheduled
  | isScheduledAt (rel : Nat)
  /-- the running handler reads its argument -/
  | arg
  | fire
  | ret
  | pass
  | next

def PE.step (s : PE α) : Op α → PE α × Res α
  | .prepare x => s.prepare x
  | .copy k => (s.connect (s.hs k), .done)
  | .drop k => (s.disconnect (s.hs k), .done)
  | .move k => (s.disconnect (s.hs k), .done)
  | .selfAssign k => ((s.disconnect (s.hs k)).connect (s.hs k), .done)
  | .schedule k d => s.schedule (s.hs k) d
  | .cancelH k => (s.cancel (s.hs k), .done)
  | .cancelHAt k rel => (s.cancelAt (s.hs k) rel, .done)
  | .cancelAll => (s.cancelAll s.inflight, .num s.inflight.length)
  -- the number returned is `inflight_pl_.size()` (337, 346)
  | .cancelAt rel => (s.cancelAllAt rel s.inflight, .num s.inflight.length)
  | .cancelIf f => let (s', n) := s.cancelIf f s.inflight; (s', .num n)
  -- 405-413, 552-560
  | .confirmIf f => (s, .yes (s.inflight.any (s.sat f)))
  -- 287-289
  | .count => (s, .num s.inflight.length)
  -- 307-309
  | .isScheduled => (s, .yes (decide (s.inflight.length > 0)))
  -- 296-303
  | .isScheduledAt rel => (s, .yes (s.inflight.any fun p => (s.entries (s.now + rel)).contains (some p)))
  | .arg =>
    match s.firing with
    | none => (s, .threw)
    | some p => (s, match (s.px p).payload with | some x => .payload x | none => .ub)
  | .fire => s.fire
  | .ret => s.ret
  | .pass => s.pass
  | .next => s.next

end Sparta.PayloadEvent
