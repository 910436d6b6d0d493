import Verif.STimer.Model
/-!
# What is expected of state timers

The books are kept from the calls and what they gave back alone: which state each handle is in, and how
many cycles it has been there.  Time is counted as it passes: when the clock goes on by `n` cycles,
every state a handle is in gets `n` more cycles.
-/
namespace Sparta.STimer

/-- The books of a user.  `count` is the number of handles obtained; `cur h k` is the state handle `h`
is in for the enum class `k`, with the cycle in which it was entered; `spent h k i` are the cycles handle
`h` has been in state `i` of class `k`; `since` are those since the last query; `live h` says that handle `h` was obtained and is not dropped,
`gone` that the unit was destroyed. -/
structure Book where
  now : Nat := 0
  count : Nat := 0
  cur : Nat → Nat → Option (Nat × Nat) := fun _ _ => none
  spent : Nat → Nat → Nat → Nat := fun _ _ _ => 0
  since : Nat → Nat → Nat → Nat := fun _ _ _ => 0
  live : Nat → Bool := fun _ => false
  gone : Bool := false

/-- `n` more cycles for every state a handle is in. -/
def Book.accrue (b : Book) (n : Nat) (f : Nat → Nat → Nat → Nat) : Nat → Nat → Nat → Nat :=
  fun h k i => f h k i + (if (b.cur h k).map (·.1) = some i then n else 0)

/-- One call in the books; a call that fails changes nothing. -/
def Book.step (b : Book) : Op → Option Err → Book
  | .tick n, none =>
    { b with now := b.now + n, spent := b.accrue n b.spent, since := b.accrue n b.since }
  | .allocate, none => { b with count := b.count + 1, live := upd b.live b.count true }
  | .start h code i, none => { b with cur := upd b.cur h (upd (b.cur h) (key code) (some (i, b.now))) }
  | .stop h code _, none => { b with cur := upd b.cur h (upd (b.cur h) (key code) none) }
  | .drop h, none => { b with cur := upd b.cur h (fun _ => none), live := upd b.live h false }
  | .query, none => { b with since := fun _ _ _ => 0 }
  | .destroy, none => { b with cur := fun _ _ => none, gone := true }
  | _, some _ => b

/-- The books of a run. -/
def Book.run (b : Book) : List Op → List (Option Err) → Book
  | op :: ops, r :: rs => Book.run (b.step op r) ops rs
  | _, _ => b

/-- The sum of the values put into the histogram of state `i` of the class `k`. -/
def tally (hist : List (Nat × Nat × Nat)) (k i : Nat) : Nat :=
  ((hist.filter fun e => e.1 == k && e.2.1 == i).map (·.2.2)).sum

/-- The cycles all handles together have been in state `i` of the class `k`. -/
def Book.all (b : Book) (k i : Nat) : Nat := ((List.range b.count).map fun h => b.spent h k i).sum

/-- The number of handles obtained and not dropped. -/
def Book.inFlight (b : Book) : Nat := ((List.range b.count).filter fun h => b.live h).length

/-- A call is legal when a state that is entered is one of its enum class. -/
def Legal (classes : List (Nat × Nat)) : Op → Prop
  | .start _ code i => ∀ n, classes.lookup (key code) = some n → i < n
  | _ => True

instance (classes : List (Nat × Nat)) (op : Op) : Decidable (Legal classes op) := by
  cases op with
  | start h code i =>
    unfold Legal
    match hl : classes.lookup (key code) with
    | none => exact isTrue (fun n hn => by rw [hl] at hn; cases hn)
    | some n =>
      exact if hi : i < n then isTrue (fun m hm => by rw [hl] at hm; cases hm; exact hi)
        else isFalse (fun hc => hi (hc n hl))
  | _ => exact isTrue trivial

end Sparta.STimer
