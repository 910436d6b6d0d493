import Verif.PayloadEvent.Model
/-!
Specification of payload events. Payloads are numbered in the order of preparation. A payload stays as long as a
handle to it exists, it is waiting for delivery, or it is being delivered.
-/
namespace Sparta.PayloadEvent

/-- the payload, the number of handles, whether it was cancelled, whether it is still there -/
structure Item (α : Type) where
  x : Option α
  refs : Nat
  cancelled : Bool
  live : Bool

/-- `pending` are the deliveries to come (tick, number of the payload) in the order of the schedule calls, `running` is the
payload being delivered, `fired` tells whether there was a delivery in this tick, `past` whether the scheduler is past the
deliveries of this tick -/
structure Spec (α : Type) where
  cap : Nat
  n : Nat
  item : Nat → Item α
  pending : List (Nat × Nat)
  now : Nat
  past : Bool
  running : Option Nat
  fired : Bool

variable {α : Type}

def Spec.init (α : Type) (cap : Nat) : Spec α := ⟨cap, 0, fun _ => ⟨none, 0, false, false⟩, [], 0, false, none, false⟩

def Spec.set (s : Spec α) (k : Nat) (i : Item α) : Spec α := { s with item := upd s.item k i }

/-- payload `k` waits for delivery -/
def Spec.waits (s : Spec α) (k : Nat) : Bool := s.pending.any fun e => e.2 == k

/-- the payloads that are still there, oldest first -/
def Spec.ids (s : Spec α) : List Nat := (List.range s.n).filter fun k => (s.item k).live

/-- payload `k` disappears if nothing keeps it -/
def Spec.settle (s : Spec α) (k : Nat) : Spec α :=
  if (s.item k).refs = 0 ∧ s.waits k = false then s.set k { s.item k with live := false, cancelled := false } else s

/-- the payloads selected are not delivered any more; those without a handle disappear -/
def Spec.cancel (s : Spec α) (sel : Nat → Bool) : Spec α :=
  { s with
    pending := s.pending.filter fun e => !sel e.2
    item := fun k =>
      if sel k && (s.item k).live then
        if (s.item k).refs = 0 then { s.item k with live := false, cancelled := false } else { s.item k with cancelled := true }
      else s.item k }

def Spec.holds (s : Spec α) (f : α → Bool) (k : Nat) : Bool :=
  match (s.item k).x with
  | some x => f x
  | none => false

def Spec.over (s : Spec α) : Bool := s.running.isNone && !(s.pending.any fun e => e.1 == s.now)

def resOf : Option α → Res α
  | some x => .payload x
  | none => .ub

def Spec.step (s : Spec α) : Op α → Spec α × Res α
  | .prepare x =>
    if s.ids.length + 1 < s.cap then
      ({ s with n := s.n + 1, item := upd s.item s.n ⟨some x, 1, false, true⟩ }, .handle s.n)
    else (s, .threw)
  | .copy k => (s.set k { s.item k with refs := (s.item k).refs + 1 }, .done)
  | .drop k => ((s.set k { s.item k with refs := (s.item k).refs - 1 }).settle k, .done)
  | .move _ => (s, .done)
  | .selfAssign _ => (s, .done)
  | .schedule k d =>
    if s.waits k = true ∨ (s.item k).cancelled = true then (s, .threw)
    else if d = 0 ∧ s.past = true then (s, .threw)
    else ({ s with pending := s.pending ++ [(s.now + d, k)] }, .done)
  | .cancelH k => (s.cancel (· == k), .done)
  | .cancelHAt k rel => (s.cancel fun i => i == k && s.pending.contains (s.now + rel, k), .done)
  | .cancelAll => (s.cancel fun _ => true, .num s.ids.length)
  | .cancelAt rel => (s.cancel fun i => s.pending.contains (s.now + rel, i), .num s.ids.length)
  | .cancelIf f => (s.cancel (s.holds f), .num (s.ids.countP (s.holds f)))
  | .confirmIf f => (s, .yes (s.ids.any (s.holds f)))
  | .count => (s, .num s.ids.length)
  | .isScheduled => (s, .yes (decide (s.ids.length > 0)))
  | .isScheduledAt rel => (s, .yes (s.pending.any fun e => e.1 == s.now + rel))
  | .arg =>
    match s.running with
    | none => (s, .threw)
    | some k => (s, resOf (s.item k).x)
  | .fire =>
    if s.running.isSome then (s, .threw)
    else match s.pending.find? fun e => e.1 == s.now with
      | none => (s, .idle)
      | some e => ({ s with pending := s.pending.filter (·.2 != e.2), running := some e.2, fired := true }, resOf (s.item e.2).x)
  | .ret =>
    match s.running with
    | none => (s, .threw)
    | some k => ({ s with running := none }.settle k, .done)
  | .pass => if s.over then ({ s with past := true }, .done) else (s, .threw)
  | .next => if s.over then ({ s with now := s.now + 1, past := false, fired := false }, .done) else (s, .threw)

/-- Handles are used only while the user holds them and are not moved or assigned to themselves; the calls that ask
about or cancel at a given cycle are not made for the current cycle once there was a delivery in it; the handler does
not read its argument after it gave up the last handle or cancelled the payload. -/
def Spec.legal (s : Spec α) : Op α → Prop
  | .copy k | .drop k | .schedule k _ | .cancelH k => k < s.n ∧ 0 < (s.item k).refs
  | .cancelHAt k rel => k < s.n ∧ 0 < (s.item k).refs ∧ (rel ≠ 0 ∨ s.fired = false)
  | .cancelAt rel | .isScheduledAt rel => rel ≠ 0 ∨ s.fired = false
  | .move _ | .selfAssign _ => False
  | .arg => ∀ k, s.running = some k → (s.item k).live = true
  | _ => True

end Sparta.PayloadEvent
